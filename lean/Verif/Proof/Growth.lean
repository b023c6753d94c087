import Verif.Proof.Struct
import Verif.Spec.Growth

/-!
# Decoded values are not much larger than documents
-/

namespace VJ
set_option linter.unusedSectionVars false
set_option linter.unusedSimpArgs false

theorem GoVal.extent_pos (v : GoVal) : 1 ≤ v.extent := by
  cases v <;> simp [GoVal.extent] <;> omega

theorem JV.extent_pos (v : JV) : 1 ≤ v.extent := by
  cases v <;> simp [JV.extent]

theorem extents_append (a b : List GoVal) : extents (a ++ b) = extents a + extents b := by
  induction a with
  | nil => simp [extents]
  | cons x xs ih => simp [extents, ih]; omega

theorem extents_replicate (n : Nat) (z : GoVal) : extents (List.replicate n z) = n * z.extent := by
  induction n with
  | zero => simp [extents]
  | succ n ih => simp [List.replicate_succ, extents, ih, Nat.add_mul]; omega

theorem extents_take_drop (n : Nat) (l : List GoVal) : extents (l.take n) + extents (l.drop n) = extents l := by
  rw [← extents_append, List.take_append_drop]

theorem docExtents_length (l : List JV) : l.length ≤ docExtents l := by
  induction l with
  | nil => simp
  | cons v l ih => simp [docExtents]; have := v.extent_pos; omega

theorem mapSet_extents (key : Str) (v : GoVal) : ∀ m, entryExtents (mapSet key v m) ≤ entryExtents m + (1 + key.length + v.extent)
  | [] => by simp [mapSet, entryExtents]
  | (k, w) :: rest => by
    simp only [mapSet]
    split
    · rename_i h; subst h; simp only [entryExtents]; omega
    · simp only [entryExtents]; have := mapSet_extents key v rest; omega

theorem b64DecodeQ_length : ∀ s, (b64DecodeQ s).1.length ≤ s.length := by
  intro s
  fun_induction b64DecodeQ s <;> simp_all +zetaDelta <;> omega

theorem b64Decode_length (s : Str) : (b64Decode s).1.length ≤ s.length :=
  Nat.le_trans (b64DecodeQ_length _) (List.length_filter_le _ _)

theorem byteLen_le (s : Str) : byteLen s ≤ 4 * s.length := by
  have h : ∀ (s : Str) (n : Nat), s.foldl (fun n c => n + c.utf8Size) n ≤ n + 4 * s.length := by
    intro s
    induction s with
    | nil => simp
    | cons c s ih =>
      intro n
      have := ih (n + c.utf8Size)
      have := c.utf8Size_le_four
      simp only [List.foldl_cons, List.length_cons]
      omega
  simpa [byteLen] using h s 0

section
variable [Ext]

/-- what a template may create from nothing is bounded by `Z` -/
def ZeroLe (Γ : Env) (Z : Nat) (t : TExpr) : Prop := ∀ k z, zeroT (Γ.methods k) t = .ok z → z.extent ≤ Z

def Extr.bounded (Γ : Env) (Z : Nat) : Extr → Prop
  | .nestedFresh t => ZeroLe Γ Z t
  | .bytes (some n) => n + 1 ≤ Z
  | .slice _ elt _ x _ _ => ZeroLe Γ Z elt ∧ x.bounded Γ Z
  | .array _ _ elt x _ _ => ZeroLe Γ Z elt ∧ x.bounded Γ Z
  | .map _ _ _ x => x.bounded Γ Z
  | _ => True

def FieldFill.dcost (f : FieldFill) : Nat :=
  match f.dflt with
  | .value d _ => d.extent
  | _ => 0

def dcosts : List (Option FieldFill) → Nat
  | [] => 0
  | none :: fs => dcosts fs
  | some f :: fs => f.dcost + dcosts fs

def FillIR.bounded (Γ : Env) (Z : Nat) : FillIR → Prop
  | .struct _ _ fs => (∀ f, some f ∈ fs → f.x.bounded Γ Z) ∧ dcosts fs ≤ Z
  | .map _ _ x => x.bounded Γ Z
  | .list _ elt x => ZeroLe Γ Z elt ∧ x.bounded Γ Z
  | .bytes _ => True
  | .transit _ x => x.bounded Γ Z

theorem ZeroLe.exists {Γ : Env} (t : TExpr) : ∃ Z0, ∀ Z, Z0 ≤ Z → ZeroLe Γ Z t := by
  by_cases h : ∃ k z, zeroT (Γ.methods k) t = .ok z
  · obtain ⟨k, z, hz⟩ := h
    refine ⟨z.extent, fun Z hZ k' z' hz' => ?_⟩
    have h1 := (zeroT_mono (fun n => methods_mono (Γ := Γ) (Nat.le_max_left k k') n) t).eq_of_ok hz
    have h2 := (zeroT_mono (fun n => methods_mono (Γ := Γ) (Nat.le_max_right k k') n) t).eq_of_ok hz'
    rw [h1] at h2
    cases h2
    exact hZ
  · exact ⟨0, fun Z _ k z hz => absurd ⟨k, z, hz⟩ h⟩

theorem Extr.bounded_exists {Γ : Env} : ∀ x : Extr, ∃ Z0, ∀ Z, Z0 ≤ Z → x.bounded Γ Z
  | .nestedFresh t => ZeroLe.exists t
  | .bytes (some n) => ⟨n + 1, fun _ h => h⟩
  | .bytes none => ⟨0, fun _ _ => trivial⟩
  | .slice _ elt _ x _ _ => by
    obtain ⟨a, ha⟩ := ZeroLe.exists (Γ := Γ) elt
    obtain ⟨b, hb⟩ := x.bounded_exists (Γ := Γ)
    exact ⟨max a b, fun Z h => ⟨ha Z (by omega), hb Z (by omega)⟩⟩
  | .array _ _ elt x _ _ => by
    obtain ⟨a, ha⟩ := ZeroLe.exists (Γ := Γ) elt
    obtain ⟨b, hb⟩ := x.bounded_exists (Γ := Γ)
    exact ⟨max a b, fun Z h => ⟨ha Z (by omega), hb Z (by omega)⟩⟩
  | .map _ _ _ x => x.bounded_exists
  | .int | .uint | .float | .bool | .strChecked _ | .strUnchecked | .time _ _ | .uuid _ | .nestedInPlace _ => ⟨0, fun _ _ => trivial⟩

theorem fields_bounded_exists {Γ : Env} : ∀ fs : List (Option FieldFill), ∃ Z0, ∀ Z, Z0 ≤ Z → ∀ f, some f ∈ fs → f.x.bounded Γ Z
  | [] => ⟨0, fun _ _ f h => by cases h⟩
  | none :: fs => by
    obtain ⟨a, ha⟩ := fields_bounded_exists (Γ := Γ) fs
    exact ⟨a, fun Z h f hf => ha Z h f (by simpa using hf)⟩
  | some g :: fs => by
    obtain ⟨a, ha⟩ := fields_bounded_exists (Γ := Γ) fs
    obtain ⟨b, hb⟩ := g.x.bounded_exists (Γ := Γ)
    refine ⟨max a b, fun Z h f hf => ?_⟩
    rcases List.mem_cons.1 hf with e | hf
    · cases e; exact hb Z (by omega)
    · exact ha Z (by omega) f hf

theorem FillIR.bounded_exists {Γ : Env} : ∀ ir : FillIR, ∃ Z0, ∀ Z, Z0 ≤ Z → ir.bounded Γ Z
  | .struct _ _ fs => by
    obtain ⟨a, ha⟩ := fields_bounded_exists (Γ := Γ) fs
    exact ⟨max a (dcosts fs), fun Z h => ⟨ha Z (by omega), by omega⟩⟩
  | .map _ _ x => x.bounded_exists
  | .list _ elt x => by
    obtain ⟨a, ha⟩ := ZeroLe.exists (Γ := Γ) elt
    obtain ⟨b, hb⟩ := x.bounded_exists (Γ := Γ)
    exact ⟨max a b, fun Z h => ⟨ha Z (by omega), hb Z (by omega)⟩⟩
  | .bytes _ => ⟨0, fun _ _ => trivial⟩
  | .transit _ x => x.bounded_exists

theorem genFill_mono' {Γ : Env} {k k' : Nat} (hk : k ≤ k') (d : Decl) : genFill Γ k d ⊑ genFill Γ k' d := by
  induction hk with
  | refl => exact Out.Le.refl _
  | step _ ih => exact ih.trans (genFill_mono Γ _ d)

/-- all the code generated for one declaration -/
theorem decl_bounded_exists {Γ : Env} (d : Decl) : ∃ Z0, ∀ Z, Z0 ≤ Z → ∀ k ir, genFill Γ k d = .ok ir → ir.bounded Γ Z := by
  by_cases h : ∃ k ir, genFill Γ k d = .ok ir
  · obtain ⟨k, ir, h⟩ := h
    obtain ⟨a, ha⟩ := ir.bounded_exists (Γ := Γ)
    refine ⟨a, fun Z hZ k' ir' h' => ?_⟩
    have h1 := (genFill_mono' (Γ := Γ) (Nat.le_max_left k k') d).eq_of_ok h
    have h2 := (genFill_mono' (Γ := Γ) (Nat.le_max_right k k') d).eq_of_ok h'
    rw [h1] at h2
    cases h2
    exact ha Z hZ
  · exact ⟨0, fun Z _ k ir hir => absurd ⟨k, ir, hir⟩ h⟩


/-! ### running the code -/

/-- what a document may add to a value, apart from a constant -/
def gr (K : Nat) (v : JV) : Nat := K * (v.extent - 1)

omit [Ext] in
theorem gr_add (K : Nat) (v : JV) : K * v.extent = gr K v + K := by
  unfold gr
  have := v.extent_pos
  obtain ⟨n, hn⟩ : ∃ n, v.extent = n + 1 := ⟨v.extent - 1, by omega⟩
  rw [hn, Nat.mul_add]; simp

omit [Ext] in
theorem gr_arr (K : Nat) (l : List JV) : gr K (.arr l) = K * docExtents l := by simp [gr, JV.extent]
omit [Ext] in
theorem gr_obj (K : Nat) (l : List (Str × JV)) : gr K (.obj l) = K * memberExtents l := by simp [gr, JV.extent]
omit [Ext] in
theorem gr_str (K : Nat) (s : Str) : gr K (.str s) = K * s.length := by simp [gr, JV.extent]

open Classical in
/-- the members of a document with keys in `P` -/
noncomputable def weights (P : Str → Prop) : List (Str × JV) → Nat
  | [] => 0
  | (k, w) :: r => (if P k then 1 + k.length + w.extent else 0) + weights P r

noncomputable def weight (P : Str → Prop) : JV → Nat
  | .obj kvs => weights P kvs
  | _ => 0

omit [Ext] in
theorem weight_le (P : Str → Prop) (v : JV) : weight P v ≤ v.extent - 1 := by
  have h : ∀ kvs, weights P kvs ≤ memberExtents kvs := by
    intro kvs
    induction kvs with
    | nil => simp [weights]
    | cons kv kvs ih => obtain ⟨k, w⟩ := kv; simp only [weights, memberExtents]; split <;> omega
  cases v <;> simp [weight, JV.extent]
  exact h _

omit [Ext] in
theorem weight_add {P Q R : Str → Prop} (h : ∀ k, P k → ¬ Q k) (hP : ∀ k, P k → R k) (hQ : ∀ k, Q k → R k) (v : JV) :
    weight P v + weight Q v ≤ weight R v := by
  cases v <;> simp only [weight, Nat.le_refl, Nat.add_zero]
  rename_i kvs
  induction kvs with
  | nil => simp [weights]
  | cons kv kvs ih =>
    obtain ⟨k, w⟩ := kv
    simp only [weights]
    by_cases hp : P k
    · simp only [hp, h k hp, hP k hp, if_true, if_false]; omega
    · by_cases hq : Q k
      · simp only [hp, hq, hQ k hq, if_true, if_false]; omega
      · simp only [hp, hq, if_false]; omega

omit [Ext] in
theorem weight_mono {P R : Str → Prop} (hP : ∀ k, P k → R k) (v : JV) : weight P v ≤ weight R v := by
  have := weight_add (P := P) (Q := fun _ => False) (R := R) (fun _ _ h => h) hP (fun _ h => h.elim) v
  omega

omit [Ext] in
theorem weight_get {v w : JV} {key : Str} (h : v.get key = some w) : w.extent ≤ weight (fun k => k = key) v := by
  cases v with
  | obj kvs =>
    simp only [JV.get] at h
    simp only [weight]
    induction kvs with
    | nil => simp [JV.lookup] at h
    | cons kv kvs ih =>
      obtain ⟨k, u⟩ := kv
      simp only [JV.lookup] at h
      simp only [weights]
      split at h
      · rename_i hk; simp at h; subst h; rw [if_pos hk]; omega
      · have := ih h; omega
  | _ => simp [JV.get] at h

/-- what is known about the methods called -/
structure Slim (Γ : Env) (Z K : Nat) (D : Nat → Nat) (M : Nat → Methods) : Prop where
  pos : 1 ≤ Z
  conv : ∀ n v w, (M n).conv v = .ok w → w.extent ≤ v.extent
  fill : ∀ n v s e s', (M n).fill v s = .ok (e, s') → s'.extent ≤ max s.extent Z + Z + gr K v
  struct : ∀ n strict fields, Γ.decl n = some (.struct strict fields) → ∀ v s e s', (M n).fill v s = .ok (e, s') →
    s'.extent ≤ s.extent + D n + K * weight (KeyRead Γ n) v

variable {Γ : Env} {Z K : Nat} {D : Nat → Nat} {M : Nat → Methods}

theorem conv_extent (hM : Slim Γ Z K D M) (t : TExpr) (v w : GoVal) (h : convT M t v = .ok w) : w.extent ≤ v.extent := by
  cases t <;> simp only [convT, Out.ok.injEq] at h
  case prim p => subst h; cases v <;> cases p <;> simp [Prim.conv, GoVal.extent]
  case named n => exact hM.conv n v w h
  case sel n => exact hM.conv n v w h
  all_goals subst h; exact Nat.le_refl _

theorem fillT_extent (hM : Slim Γ Z K D M) (t : TExpr) (v : JV) (s : GoVal) (e : Option Err) (s' : GoVal) (h : fillT M t v s = .ok (e, s')) :
    s'.extent ≤ max s.extent Z + Z + gr K v := by
  cases t <;> simp only [fillT, reduceCtorEq] at h
  case named n => exact hM.fill n v s e s' h
  case sel n => exact hM.fill n v s e s' h

def Cell.val : Cell → GoVal
  | .store v | .ret _ v | .brk _ v => v

omit [Ext] in
/-- a loop over cells that grow by what is read into them -/
theorem sliceLoop_grow {f : Nat → JV → GoVal → Out Cell} (hf : ∀ i a c r, f i a c = .ok r → r.val.extent ≤ c.extent + K * a.extent) :
    ∀ (l : List JV) (i : Nat) (cells : List GoVal) (s : Stop) (n : Nat) (cells' : List GoVal), sliceLoop f i l cells = .ok (s, n, cells') →
      extents cells' ≤ extents cells + K * docExtents l
  | [], i, cells, s, n, cells', h => by simp [sliceLoop] at h; rw [h.2.2]; omega
  | a :: as, i, [], s, n, cells', h => by simp [sliceLoop] at h
  | a :: as, i, c :: cs, s, n, cells', h => by
    simp only [sliceLoop] at h
    obtain ⟨r, hr, h⟩ := Out.bind_eq_ok.1 h
    have h1 := hf i a c r hr
    have h2 : K * docExtents (a :: as) = K * a.extent + K * docExtents as := by simp [docExtents, Nat.mul_add]
    cases r with
    | store w =>
      simp only at h
      obtain ⟨⟨s1, n1, c1⟩, h3, h⟩ := Out.bind_eq_ok.1 h
      simp at h
      obtain ⟨_, _, rfl⟩ := h
      have := sliceLoop_grow hf as (i + 1) cs s1 n1 c1 h3
      simp only [extents, Cell.val] at *
      omega
    | ret e w =>
      simp at h
      obtain ⟨_, _, rfl⟩ := h
      simp only [extents, Cell.val] at *
      omega
    | brk e w =>
      simp at h
      obtain ⟨_, _, rfl⟩ := h
      simp only [extents, Cell.val] at *
      omega

omit [Ext] in
/-- a loop over fresh cells -/
theorem sliceLoop_fresh {f : Nat → JV → GoVal → Out Cell} {z : GoVal} (hz : z.extent ≤ K)
    (hf : ∀ i a r, f i a z = .ok r → r.val.extent ≤ K * a.extent) :
    ∀ (l : List JV) (i : Nat) (s : Stop) (n : Nat) (cells' : List GoVal), sliceLoop f i l (List.replicate l.length z) = .ok (s, n, cells') →
      extents cells' ≤ K * docExtents l
  | [], i, s, n, cells', h => by simp [sliceLoop] at h; simp [h.2.2, extents]
  | a :: as, i, s, n, cells', h => by
    simp only [List.length_cons, List.replicate_succ, sliceLoop] at h
    obtain ⟨r, hr, h⟩ := Out.bind_eq_ok.1 h
    have h1 := hf i a r hr
    have h2 : K * docExtents (a :: as) = K * a.extent + K * docExtents as := by simp [docExtents, Nat.mul_add]
    have h4 : extents (List.replicate as.length z) ≤ K * docExtents as := by
      rw [extents_replicate, Nat.mul_comm]
      exact Nat.mul_le_mul hz (docExtents_length as)
    cases r with
    | store w =>
      simp only at h
      obtain ⟨⟨s1, n1, c1⟩, h3, h⟩ := Out.bind_eq_ok.1 h
      simp at h
      obtain ⟨_, _, rfl⟩ := h
      have := sliceLoop_fresh hz hf as (i + 1) s1 n1 c1 h3
      simp only [extents, Cell.val] at *
      omega
    | ret e w =>
      simp at h
      obtain ⟨_, _, rfl⟩ := h
      simp only [extents, Cell.val] at *
      omega
    | brk e w =>
      simp at h
      obtain ⟨_, _, rfl⟩ := h
      simp only [extents, Cell.val] at *
      omega

/-- what is known about the end of a template -/
def TVsize (Z K : Nat) (v : JV) (fld : GoVal) : TV → Prop
  | .ret _ fld' | .done (.error _) fld' => fld'.extent ≤ max fld.extent Z + Z + gr K v
  | .done (.ok val) fld' => fld'.extent ≤ max fld.extent Z + Z + gr K v ∧ val.extent ≤ max fld.extent Z + Z + gr K v

theorem storeElem_extent (hM : Slim Γ Z K D M) (st : ElemStore) (val c w : GoVal) (h : storeElem M st val c = .ok w) :
    w.extent ≤ max val.extent c.extent + 1 := by
  cases st with
  | ref t =>
    simp only [storeElem] at h
    obtain ⟨u, hu, h⟩ := Out.bind_eq_ok.1 h
    simp at h; subst h
    have := conv_extent hM t val u hu
    simp only [GoVal.extent]; omega
  | val t => have := conv_extent hM t val w h; omega
  | filled => simp [storeElem] at h; subst h; omega

theorem elemRound_extent (hM : Slim Γ Z K D M) {x : Nat → JV → GoVal → Out TV}
    (hx : ∀ i v fld r, x i v fld = .ok r → TVsize Z K v fld r) (nullable brk : Bool) (st : ElemStore) (i : Nat) (a : JV) (c : GoVal) (r : Cell)
    (h : elemRound M nullable brk st x i a c = .ok r) : r.val.extent ≤ max c.extent Z + Z + gr K a + 1 := by
  have hpos := hM.pos
  unfold elemRound at h
  split at h
  · simp at h; subst h; simp only [Cell.val, GoVal.extent]; omega
  · obtain ⟨t, ht, h⟩ := Out.bind_eq_ok.1 h
    have h1 := hx i a c t ht
    cases t with
    | ret e c' => simp at h; subst h; simp only [Cell.val, TVsize] at *; omega
    | done q c' =>
      cases q with
      | error e =>
        simp only at h
        split at h
        · simp at h; subst h; simp only [Cell.val, TVsize] at *; omega
        · simp at h
      | ok val =>
        simp only at h
        obtain ⟨w, hw, h⟩ := Out.bind_eq_ok.1 h
        simp at h; subst h
        have := storeElem_extent hM st val c' w hw
        simp only [Cell.val, TVsize] at *
        omega

theorem mapLoop_extent (hM : Slim Γ Z K D M) (hK : 2 * Z + 3 ≤ K) {x : JV → Out TV}
    (hx : ∀ v r, x v = .ok r → TVsize Z K v .nil r) (star : Bool) (t : TExpr) :
    ∀ (kvs : List (Str × JV)) (m : List (Str × GoVal)) (e : Option Err) (m' : List (Str × GoVal)), mapLoop M star t x kvs m = .ok (e, m') →
      entryExtents m' ≤ entryExtents m + K * memberExtents kvs
  | [], m, e, m', h => by simp [mapLoop] at h; rw [h.2]; omega
  | (key, v) :: kvs, m, e, m', h => by
    have h2 : K * memberExtents ((key, v) :: kvs) = K * (1 + key.length) + K * v.extent + K * memberExtents kvs := by
      simp [memberExtents, Nat.mul_add]
    have h3 : 1 + key.length ≤ K * (1 + key.length) := Nat.le_mul_of_pos_left _ (by omega)
    have h4 := gr_add K v
    have hv := v.extent_pos
    have hpos := hM.pos
    simp only [mapLoop] at h
    split at h
    · have h5 := mapLoop_extent hM hK hx star t kvs _ e m' h
      have h6 := mapSet_extents key .nil m
      simp only [GoVal.extent] at h6
      omega
    · obtain ⟨r, hr, h⟩ := Out.bind_eq_ok.1 h
      have h1 := hx v r hr
      cases r with
      | ret e c' => simp at h
      | done q c' =>
        cases q with
        | error e => simp at h; rw [← h.2]; omega
        | ok val =>
          simp only at h
          obtain ⟨w, hw, h⟩ := Out.bind_eq_ok.1 h
          have h5 := mapLoop_extent hM hK hx star t kvs _ e m' h
          have h6 := mapSet_extents key (if star = true then GoVal.ptr w else w) m
          have h7 := conv_extent hM t val w hw
          have h8 : (if star = true then GoVal.ptr w else w).extent ≤ w.extent + 1 := by
            split <;> simp [GoVal.extent]; omega
          simp only [TVsize, GoVal.extent] at h1
          omega

omit [Ext] in
theorem bytesFill_extent (hK : 3 ≤ K) (len : Option Nat) (v : JV) (d : GoVal) (e : Option Err) (d' : GoVal) (h : bytesFill len v d = .ok (e, d')) :
    d'.extent ≤ d.extent + gr K v := by
  unfold bytesFill at h
  split at h
  · simp at h; rw [← h.2]; omega
  · cases hs : v.getStr with
    | error c => rw [hs] at h; simp at h; rw [← h.2]; omega
    | ok s =>
      have : v = .str s := by cases v <;> simp [JV.getStr] at hs; rw [hs]
      subst this
      rw [gr_str]
      have h0 := b64Decode_length s
      have h1 : 3 * s.length ≤ K * s.length := Nat.mul_le_mul_right _ hK
      have h2 := byteLen_le s
      have hp := d.extent_pos
      rw [hs] at h
      cases len with
      | none =>
        simp only at h
        split at h
        · simp at h; rw [← h.2]; simp only [GoVal.extent]; omega
        · simp at h; rw [← h.2]
          simp only [GoVal.extent, List.length_append, List.length_replicate, b64DecodedLen]; omega
      | some n =>
        cases d <;> simp only [reduceCtorEq] at h
        rename_i old
        have h3 : (GoVal.barr ((b64Decode s).1 ++ old.drop (b64Decode s).1.length)).extent ≤ (GoVal.barr old).extent + K * s.length := by
          simp only [GoVal.extent, List.length_append, List.length_drop]; omega
        split at h
        · simp at h
        · split at h
          · simp at h; rw [← h.2]; exact h3
          · split at h
            · simp at h; rw [← h.2]; exact h3
            · simp at h; rw [← h.2]; exact h3

theorem runExtr_extent {k : Nat} (hM : Slim Γ Z K D (Γ.methods k)) (hK : 2 * Z + 3 ≤ K) : ∀ (x : Extr), x.bounded Γ Z → ∀ (i : Nat) (v : JV) (fld : GoVal) (r : TV),
    runExtr (Γ.methods k) x i v fld = .ok r → TVsize Z K v fld r := by
  have hpos := hM.pos
  have simpleTV : ∀ (v : JV) (fld : GoVal) (q : Except Err GoVal), (∀ val, q = .ok val → val.extent ≤ 1 + gr K v) → TVsize Z K v fld (.done q fld) := by
    intro v fld q h
    cases q with
    | error e => simp only [TVsize]; omega
    | ok val => have := h val rfl; simp only [TVsize]; omega
  intro x
  induction x with
  | int =>
    intro _ i v fld r h
    simp only [runExtr, Out.ok.injEq] at h; subst h
    exact simpleTV _ _ _ fun val hv => by cases hq : v.getInt <;> simp [hq] at hv; subst hv; simp [GoVal.extent]
  | uint =>
    intro _ i v fld r h
    simp only [runExtr, Out.ok.injEq] at h; subst h
    exact simpleTV _ _ _ fun val hv => by cases hq : v.getUint <;> simp [hq] at hv; subst hv; simp [GoVal.extent]
  | float =>
    intro _ i v fld r h
    simp only [runExtr, Out.ok.injEq] at h; subst h
    exact simpleTV _ _ _ fun val hv => by cases hq : v.getFloat <;> simp [hq] at hv; subst hv; simp [GoVal.extent]
  | bool =>
    intro _ i v fld r h
    simp only [runExtr, Out.ok.injEq] at h; subst h
    exact simpleTV _ _ _ fun val hv => by cases hq : v.getBool <;> simp [hq] at hv; subst hv; simp [GoVal.extent]
  | strChecked path =>
    intro _ i v fld r h
    simp only [runExtr] at h
    cases hs : v.getStr with
    | error c => rw [hs] at h; simp at h; subst h; simp only [TVsize]; omega
    | ok s =>
      rw [hs] at h; simp at h; subst h
      refine simpleTV _ _ _ fun val hv => ?_
      have : v = .str s := by cases v <;> simp [JV.getStr] at hs; rw [hs]
      subst this
      cases hv
      have h1 : 1 * s.length ≤ K * s.length := Nat.mul_le_mul_right _ (by omega)
      simp only [gr_str, GoVal.extent]; omega
  | strUnchecked =>
    intro _ i v fld r h
    simp only [runExtr, Out.ok.injEq] at h; subst h
    refine simpleTV _ _ _ fun val hv => ?_
    cases hs : v.getStr with
    | error c => simp [hs] at hv
    | ok s =>
      simp [hs] at hv
      have : v = .str s := by cases v <;> simp [JV.getStr] at hs; rw [hs]
      subst this
      cases hv
      have h1 : 1 * s.length ≤ K * s.length := Nat.mul_le_mul_right _ (by omega)
      simp only [gr_str, GoVal.extent]; omega
  | time json layout =>
    intro _ i v fld r h
    simp only [runExtr] at h
    cases hs : v.getStr with
    | error c => rw [hs] at h; simp at h; subst h; simp only [TVsize]; omega
    | ok s =>
      rw [hs] at h; simp only [Out.ok.injEq] at h; subst h
      refine simpleTV _ _ _ fun val hv => ?_
      split at hv
      · cases hv; simp [GoVal.extent]
      · cases hv
  | uuid json =>
    intro _ i v fld r h
    simp only [runExtr] at h
    cases hs : v.getStr with
    | error c => rw [hs] at h; simp at h; subst h; simp only [TVsize]; omega
    | ok s =>
      rw [hs] at h; simp only [Out.ok.injEq] at h; subst h
      refine simpleTV _ _ _ fun val hv => ?_
      split at hv
      · cases hv; simp [GoVal.extent]
      · cases hv
  | nestedFresh t =>
    intro hb i v fld r h
    simp only [runExtr] at h
    obtain ⟨z, hz, h⟩ := Out.bind_eq_ok.1 h
    obtain ⟨⟨e, w⟩, hw, h⟩ := Out.bind_eq_ok.1 h
    simp at h; subst h
    have h1 := hb k z hz
    have h2 := fillT_extent hM t v z e w hw
    cases e with
    | none => simp only [TVsize]; omega
    | some e => simp only [TVsize]; omega
  | nestedInPlace t =>
    intro hb i v fld r h
    simp only [runExtr] at h
    obtain ⟨⟨e, w⟩, hw, h⟩ := Out.bind_eq_ok.1 h
    simp at h; subst h
    have h2 := fillT_extent hM t v fld e w hw
    cases e with
    | none => simp only [TVsize]; omega
    | some e => simp only [TVsize]; omega
  | bytes len =>
    intro hb i v fld r h
    simp only [runExtr] at h
    obtain ⟨⟨e, d⟩, hd, h⟩ := Out.bind_eq_ok.1 h
    have h1 := bytesFill_extent (K := K) (by omega) len v _ e d hd
    have h2 : (bytesVar len).extent ≤ Z := by
      cases len with
      | none => simpa [bytesVar, GoVal.extent] using hpos
      | some n => simp only [Extr.bounded] at hb; simp [bytesVar, GoVal.extent]; omega
    cases e with
    | none => simp at h; subst h; simp only [TVsize]; omega
    | some e => simp at h; subst h; simp only [TVsize]; omega
  | slice json elt nullable x brk st ih =>
    intro hb i v fld r h
    simp only [runExtr] at h
    cases hs : v.getArr with
    | error c => rw [hs] at h; simp at h; subst h; simp only [TVsize]; omega
    | ok l =>
      have : v = .arr l := by cases v <;> simp [JV.getArr] at hs; rw [hs]
      subst this
      rw [hs] at h; simp only at h
      obtain ⟨z, hz, h⟩ := Out.bind_eq_ok.1 h
      obtain ⟨⟨fresh, cells⟩, hc, h⟩ := Out.bind_eq_ok.1 h
      obtain ⟨⟨stop, n, cells'⟩, hl, h⟩ := Out.bind_eq_ok.1 h
      have hzle := hb.1 k z hz
      have hround := elemRound_extent hM (ih hb.2) nullable brk st
      have hfp := fld.extent_pos
      -- the field and the new slice
      have key : (fieldAfter fresh fld cells').extent ≤ fld.extent + K * docExtents l ∧ (mkSlice n cells').extent ≤ fld.extent + K * docExtents l := by
        have hmk : ∀ n, (mkSlice n cells').extent = 1 + extents cells' := by
          intro n; simp only [mkSlice, GoVal.extent]; have := extents_take_drop n cells'; omega
        cases fresh with
        | true =>
          have hcells : cells = List.replicate l.length z := by
            cases fld <;> simp [sliceCells] at hc
            · exact hc.symm
            · split at hc <;> simp at hc
              exact hc.symm
          subst hcells
          have h1 := sliceLoop_fresh (K := K) (z := z) (by omega) (fun i a r hr => by
            have := hround i a z r hr
            have := gr_add K a
            omega) l 0 stop n cells' hl
          have : fieldAfter true fld cells' = fld := by cases fld <;> rfl
          rw [this, hmk]
          omega
        | false =>
          have h1 := sliceLoop_grow (K := K) (fun i a c r hr => by
            have := hround i a c r hr
            have := gr_add K a
            have := c.extent_pos
            omega) l 0 cells stop n cells' hl
          cases fld <;> simp [sliceCells] at hc
          rename_i es sp
          split at hc <;> simp at hc
          subst hc
          simp only [fieldAfter, hmk]
          rw [extents_append] at h1
          simp only [GoVal.extent]
          omega
      have hg := gr_arr K l
      cases stop with
      | fin => simp at h; subst h; simp only [TVsize]; omega
      | ret e => simp at h; subst h; simp only [TVsize]; omega
      | brk e =>
        simp only at h
        split at h
        · simp at h; subst h; simp only [TVsize]; omega
        · simp at h; subst h; simp only [TVsize]; omega
  | array json len elt x brk st ih =>
    intro hb i v fld r h
    simp only [runExtr] at h
    cases hs : v.getArr with
    | error c => rw [hs] at h; simp at h; subst h; simp only [TVsize]; omega
    | ok l =>
      have : v = .arr l := by cases v <;> simp [JV.getArr] at hs; rw [hs]
      subst this
      rw [hs] at h; simp only at h
      split at h
      · simp at h; subst h; simp only [TVsize]; omega
      · rename_i hlen
        have hlen : len = l.length := by
          by_cases hq : l.length = len
          · exact hq.symm
          · exact absurd hq hlen
        subst hlen
        obtain ⟨z, hz, h⟩ := Out.bind_eq_ok.1 h
        obtain ⟨⟨stop, n, cells'⟩, hl, h⟩ := Out.bind_eq_ok.1 h
        have hzle := hb.1 k z hz
        have hround := elemRound_extent hM (ih hb.2) false brk st
        have h1 := sliceLoop_fresh (K := K) (z := z) (by omega) (fun i a r hr => by
          have := hround i a z r hr
          have := gr_add K a
          omega) l 0 stop n cells' hl
        have hg := gr_arr K l
        cases stop with
        | fin => simp at h; subst h; simp only [TVsize, GoVal.extent]; omega
        | ret e => simp at h; subst h; simp only [TVsize]; omega
        | brk e =>
          simp only at h
          split at h
          · simp at h; subst h; simp only [TVsize, GoVal.extent]; omega
          · simp at h; subst h; simp only [TVsize]; omega
  | map json star val x ih =>
    intro hb i v fld r h
    simp only [runExtr] at h
    cases hs : v.getObj with
    | error c => rw [hs] at h; simp at h; subst h; simp only [TVsize]; omega
    | ok kvs =>
      have : v = .obj kvs := by cases v <;> simp [JV.getObj] at hs; rw [hs]
      subst this
      rw [hs] at h; simp only at h
      obtain ⟨m0, hm0, h⟩ := Out.bind_eq_ok.1 h
      obtain ⟨⟨e, m⟩, hm, h⟩ := Out.bind_eq_ok.1 h
      have h1 := mapLoop_extent hM hK (fun v r hr => ih hb 0 v .nil r hr) star val kvs _ e m hm
      have hg := gr_obj K kvs
      have hf : 1 + entryExtents m0.1 ≤ fld.extent ∧ (if m0.2 = true then fld else GoVal.map m).extent ≤ fld.extent + K * memberExtents kvs := by
        cases fld <;> simp at hm0
        · subst hm0; simp [entryExtents, GoVal.extent]
        · subst hm0; simp only at h1; simp [GoVal.extent]; omega
      cases e with
      | none => simp at h; subst h; simp only [TVsize, GoVal.extent]; omega
      | some e => simp at h; subst h; simp only [TVsize]; omega


/-! ### fields and structs -/

theorem storeField_extent (hM : Slim Γ Z K D M) (st : Store) (val fld w : GoVal) (h : storeField M st val fld = .ok w) :
    w.extent ≤ max val.extent fld.extent + 2 := by
  cases st <;> simp only [storeField] at h
  case filled => simp at h; subst h; omega
  case val t => have := conv_extent hM t val w h; omega
  case ref t =>
    obtain ⟨u, hu, h⟩ := Out.bind_eq_ok.1 h
    simp at h; subst h
    have := conv_extent hM t val u hu
    simp only [GoVal.extent]; omega
  case named t =>
    obtain ⟨u, hu, h⟩ := Out.bind_eq_ok.1 h
    simp at h; subst h
    have := conv_extent hM t val u hu
    simp only [GoVal.extent]; omega
  case refNamed t =>
    obtain ⟨u, hu, h⟩ := Out.bind_eq_ok.1 h
    simp at h; subst h
    have := conv_extent hM t val u hu
    simp only [GoVal.extent]; omega

/-- the part of `runField` after the lookup -/
theorem runField_ends {f : FieldFill} {v : JV} {fld : GoVal} {e : Option Err} {g : GoVal} (h : runField M f v fld = .ok (e, g)) :
    (∃ w, (if f.json = [] then some v else v.get f.json) = some w ∧ ∃ r, runExtr M f.x 0 w fld = .ok r ∧
      ((∃ e', r = .ret e' g) ∨ (∃ q, r = .done q g) ∨ ∃ val fld', r = .done (.ok val) fld' ∧ storeField M f.store val fld' = .ok g)) ∨
    g = fld ∨ ∃ d b, f.dflt = .value d b ∧ g = d := by
  unfold runField at h
  simp only at h
  split at h
  · rename_i w hw
    have hx : (if f.json = [] then some v else v.get f.json) = some w := by
      revert hw
      cases (if f.json = [] then some v else v.get f.json) with
      | none => simp
      | some u => intro hw; simp only at hw; split at hw <;> simp at hw; rw [hw]
    refine Or.inl ⟨w, hx, ?_⟩
    obtain ⟨r, hr, h⟩ := Out.bind_eq_ok.1 h
    refine ⟨r, hr, ?_⟩
    cases r with
    | ret e' c => simp at h; exact Or.inl ⟨e', by rw [h.2]⟩
    | done q c =>
      cases q with
      | error e' =>
        simp only at h
        split at h
        · simp at h; exact Or.inr (Or.inl ⟨_, by rw [h.2]⟩)
        · simp at h
      | ok val =>
        simp only at h
        split at h
        · simp at h; exact Or.inr (Or.inl ⟨_, by rw [h.2]⟩)
        · obtain ⟨u, hu, h⟩ := Out.bind_eq_ok.1 h
          simp at h
          exact Or.inr (Or.inr ⟨val, c, rfl, by rw [hu, h.2]⟩)
  · refine Or.inr ?_
    split at h
    · simp at h; exact Or.inl h.2.symm
    · simp at h; exact Or.inl h.2.symm
    · rename_i d b hd
      generalize (if f.json = [] then some v else v.get f.json) = u at h
      split at h
      · simp only [Out.ok.injEq, Prod.mk.injEq] at h; exact Or.inl h.2.symm
      · simp only [Out.ok.injEq, Prod.mk.injEq] at h; exact Or.inr ⟨d, b, hd, h.2.symm⟩

/-- a field with a JSON name -/
theorem runField_key_extent {k : Nat} (hM : Slim Γ Z K D (Γ.methods k)) (hK : 2 * Z + 3 ≤ K) {f : FieldFill} (hx : f.x.bounded Γ Z) (hj : f.json ≠ [])
    {v : JV} {fld : GoVal} {e : Option Err} {g : GoVal} (h : runField (Γ.methods k) f v fld = .ok (e, g)) :
    g.extent ≤ fld.extent + f.dcost + K * weight (fun key => key = f.json) v := by
  rcases runField_ends h with ⟨w, hw, r, hr, h⟩ | h | ⟨d, b, hd, h⟩
  · rw [if_neg hj] at hw
    have h1 : K * w.extent ≤ K * weight (fun key => key = f.json) v := Nat.mul_le_mul_left _ (weight_get hw)
    have h2 := gr_add K w
    have h3 := runExtr_extent hM hK f.x hx 0 w fld r hr
    have h4 := fld.extent_pos
    rcases h with ⟨e', rfl⟩ | ⟨q, rfl⟩ | ⟨val, fld', rfl, hs⟩
    · simp only [TVsize] at h3; omega
    · cases q <;> simp only [TVsize] at h3 <;> omega
    · have := storeField_extent hM f.store val fld' g hs
      simp only [TVsize] at h3; omega
  · rw [h]; omega
  · have : f.dcost = d.extent := by simp [FieldFill.dcost, hd]
    rw [h, this]; omega

/-- the code for an embedded pointer to a struct -/
theorem genFieldFill_embeddedPtr {k : Nat} {fd : FieldDecl} {f : FieldFill} {m : Nat} {st : Bool} {fs : List FieldDecl}
    (hd : Γ.decl m = some (.struct st fs)) (ht : fd.typ = .star (.named m)) (h : genFieldFill Γ k fd = .ok (some f)) :
    f.x = .nestedFresh (.named m) ∧ f.store = .ref (.named m) := by
  obtain ⟨_, _, r, h1, hx, hs, _, hn, hc, hmx⟩ := genFieldFill_some h
  have hp : Fld.prepare Γ true fd.typ fd.tags false false
      = ⟨true, .named m, .structT, fd.tags, true, true, false⟩ := by
    simp [Fld.prepare, ht, Env.denoted, Env.denotedIdent, hd, Decl.spec, TExpr.isOrdinal]
  rw [hp] at h1 hs hn hc hmx
  cases k with
  | zero => simp [typedValue] at h1
  | succ k =>
    simp [typedValue, Env.denoted, TExpr.isOrdinal, nestedExtraction] at h1
    subst h1
    simp [storeOf] at hs
    exact ⟨hx, hs.symm⟩

/-- an embedded struct, or a pointer to one -/
theorem runField_inline_extent {k : Nat} (hM : Slim Γ Z K D (Γ.methods k)) {Z0 : Nat} {f : FieldFill} {fd : FieldDecl} {k' m : Nat}
    (hg : genFieldFill Γ k' fd = .ok (some f)) (hx : f.x.bounded Γ Z0) (hj : f.json = []) {st : Bool} {fs : List FieldDecl}
    (hd : Γ.decl m = some (.struct st fs)) (ht : pointee fd.typ = .named m)
    {v : JV} {fld : GoVal} {e : Option Err} {g : GoVal} (h : runField (Γ.methods k) f v fld = .ok (e, g)) :
    g.extent ≤ fld.extent + f.dcost + (Z0 + 1 + D m) + K * weight (KeyRead Γ m) v := by
  rcases runField_ends h with ⟨w, hw, r, hr, h⟩ | h | ⟨d, b, hd', h⟩
  · rw [if_pos hj] at hw
    cases hw
    have hty : fd.typ = .named m ∨ fd.typ = .star (.named m) := by
      cases hty : fd.typ <;> rw [hty] at ht <;> simp [pointee] at ht ⊢ <;> exact ht
    rcases hty with hty | hty
    · obtain ⟨h1, h2, _⟩ := genFieldFill_embedded hd hty hg
      rw [h1] at hr
      simp only [runExtr, fillT] at hr
      obtain ⟨⟨e', w⟩, hw, hr⟩ := Out.bind_eq_ok.1 hr
      have h3 := hM.struct m st fs hd v fld e' w hw
      have : g = w := by
        simp only [Out.pure_eq, Out.ok.injEq] at hr
        rcases h with ⟨e', h⟩ | ⟨q, h⟩ | ⟨val, fld', h, hs⟩
        · rw [h] at hr; cases hr
        · rw [h] at hr; cases hr; rfl
        · rw [h] at hr; rw [h2] at hs; simp only [storeField, Out.ok.injEq] at hs; simp only [TV.done.injEq] at hr; rw [← hs, ← hr.2]
      rw [this]; omega
    · obtain ⟨h1, h2⟩ := genFieldFill_embeddedPtr hd hty hg
      rw [h1] at hr hx
      simp only [runExtr, fillT] at hr
      obtain ⟨z, hz, hr⟩ := Out.bind_eq_ok.1 hr
      obtain ⟨⟨e', w⟩, hw, hr⟩ := Out.bind_eq_ok.1 hr
      have h3 := hM.struct m st fs hd v z e' w hw
      have h4 := hx k z hz
      simp only [Out.pure_eq, Out.ok.injEq] at hr
      rcases h with ⟨e', h⟩ | ⟨q, h⟩ | ⟨val, fld', h, hs⟩
      · rw [h] at hr; cases hr
      · rw [h] at hr; cases hr; omega
      · rw [h] at hr; rw [h2] at hs
        simp only [storeField] at hs
        obtain ⟨u, hu, hs⟩ := Out.bind_eq_ok.1 hs
        simp at hs; subst hs
        have h5 := conv_extent hM _ val u hu
        cases e' with
        | none => cases hr; simp only [GoVal.extent]; omega
        | some e' => cases hr
  · rw [h]; omega
  · have : f.dcost = d.extent := by simp [FieldFill.dcost, hd']
    rw [h, this]; omega

/-- what the embedded structs of a list of fields add -/
def embedCost (Z0 : Nat) (D : Nat → Nat) : List FieldDecl → Nat
  | [] => 0
  | fd :: fds => (if fd.tags.jsonName = [] then match pointee fd.typ with | .named m => Z0 + 1 + D m | _ => 0 else 0) + embedCost Z0 D fds

theorem runFields_extent {k : Nat} (hM : Slim Γ Z K D (Γ.methods k)) (hK : 2 * Z + 3 ≤ K) {Z0 k' : Nat} (hZ : Z0 ≤ Z) (v : JV) :
    ∀ (fds : List FieldDecl) (fs : List (Option FieldFill)), genFields Γ k' fds = .ok fs → (∀ f, some f ∈ fs → f.x.bounded Γ Z ∧ f.x.bounded Γ Z0) →
    (∀ fd ∈ fds, fd.tags.jsonName = [] → ∃ m strict fields', pointee fd.typ = .named m ∧ Γ.decl m = some (.struct strict fields')) →
    fds.Pairwise (fun a b => ∀ key, KeyOf Γ a key → ¬ KeyOf Γ b key) →
    ∀ (gs : List GoVal) (e : Option Err) (gs' : List GoVal), runFields (Γ.methods k) v fs gs = .ok (e, gs') →
      extents gs' ≤ extents gs + dcosts fs + embedCost Z0 D fds + K * weight (fun key => ∃ fd ∈ fds, KeyOf Γ fd key) v
  | [], fs, hg, _, _, _, gs, e, gs', h => by
    simp [genFields] at hg; subst hg
    cases gs <;> simp [runFields] at h
    rw [h.2]; simp [extents]
  | fd :: fds, fs, hg, hb, he, hp, gs, e, gs', h => by
    simp only [genFields] at hg
    obtain ⟨f0, h0, h1⟩ := Out.bind_eq_ok.1 hg
    obtain ⟨fs0, h2, h3⟩ := Out.bind_eq_ok.1 h1
    simp only [Out.pure_eq, Out.ok.injEq] at h3
    subst h3
    have ih := runFields_extent hM hK hZ v fds fs0 h2 (fun f hf => hb f (by simp [hf])) (fun fd hf => he fd (by simp [hf])) (List.pairwise_cons.1 hp).2
    have hw : weight (KeyOf Γ fd) v + weight (fun key => ∃ fd ∈ fds, KeyOf Γ fd key) v ≤ weight (fun key => ∃ fd' ∈ fd :: fds, KeyOf Γ fd' key) v :=
      weight_add (fun key hk hq => by obtain ⟨fd', hm, hq⟩ := hq; exact (List.pairwise_cons.1 hp).1 fd' hm key hk hq)
        (fun key hk => ⟨fd, by simp, hk⟩) (fun key hk => by obtain ⟨fd', hm, hk⟩ := hk; exact ⟨fd', by simp [hm], hk⟩) v
    have hw := Nat.mul_le_mul_left K hw
    rw [Nat.mul_add] at hw
    cases gs with
    | nil => cases f0 <;> simp [runFields] at h
    | cons g gs =>
      cases f0 with
      | none =>
        simp only [runFields] at h
        obtain ⟨⟨e', gs1⟩, hr, h⟩ := Out.bind_eq_ok.1 h
        simp at h
        obtain ⟨_, rfl⟩ := h
        have := ih gs e' gs1 hr
        simp only [extents, dcosts, embedCost]
        omega
      | some f =>
        simp only [runFields] at h
        obtain ⟨⟨e', g'⟩, hr, h⟩ := Out.bind_eq_ok.1 h
        have hfield : g'.extent ≤ g.extent + f.dcost + (if fd.tags.jsonName = [] then match pointee fd.typ with | .named m => Z0 + 1 + D m | _ => 0 else 0)
            + K * weight (KeyOf Γ fd) v := by
          obtain ⟨hj, hdash, _⟩ := genFieldFill_some h0
          by_cases hn : fd.tags.jsonName = []
          · obtain ⟨m, st, fields', hm, hd⟩ := he fd (by simp) hn
            have := runField_inline_extent hM h0 (hb f (by simp)).2 (by rw [hj, hn]) hd hm hr
            have h5 := Nat.mul_le_mul_left K (weight_mono (P := KeyRead Γ m) (R := KeyOf Γ fd) (fun key hk => Or.inr ⟨hn, m, hm, hk⟩) v)
            rw [if_pos hn, hm]
            simp only
            omega
          · have := runField_key_extent hM hK (hb f (by simp)).1 (by rw [hj]; exact hn) hr
            have h5 := Nat.mul_le_mul_left K (weight_mono (P := fun key => key = f.json) (R := KeyOf Γ fd)
              (fun key hk => Or.inl ⟨hn, hdash, by rw [hk, hj]⟩) v)
            rw [if_neg hn]
            omega
        cases e' with
        | some e' =>
          simp at h
          obtain ⟨_, rfl⟩ := h
          simp only [extents, dcosts, embedCost]
          omega
        | none =>
          simp only at h
          obtain ⟨⟨e'', gs1⟩, hr', h⟩ := Out.bind_eq_ok.1 h
          simp at h
          obtain ⟨_, rfl⟩ := h
          have := ih gs e'' gs1 hr'
          simp only [extents, dcosts, embedCost]
          omega

theorem listRound_extent {k : Nat} (hM : Slim Γ Z K D (Γ.methods k)) (hK : 2 * Z + 3 ≤ K) {x : Extr} (hx : x.bounded Γ Z) (elt : TExpr) (i : Nat) (a : JV) (c : GoVal) (r : Cell)
    (h : listRound (Γ.methods k) elt x i a c = .ok r) : r.val.extent ≤ max c.extent (K * a.extent) := by
  unfold listRound at h
  obtain ⟨t, ht, h⟩ := Out.bind_eq_ok.1 h
  have hpos := hM.pos
  have h1 := runExtr_extent hM hK x hx i a .nil t ht
  have h2 := gr_add K a
  cases t with
  | ret e c' => simp at h; subst h; simp only [Cell.val]; omega
  | done q c' =>
    cases q with
    | error e => simp at h; subst h; simp only [Cell.val]; omega
    | ok val =>
      simp only at h
      obtain ⟨w, hw, h⟩ := Out.bind_eq_ok.1 h
      simp at h; subst h
      have := conv_extent hM elt val w hw
      simp only [TVsize, GoVal.extent] at h1
      simp only [Cell.val]
      omega

/-- the methods that are not those of structs -/
theorem runFill_extent {k : Nat} (hM : Slim Γ Z K D (Γ.methods k)) (hK : 2 * Z + 3 ≤ K) {ir : FillIR} (hb : ir.bounded Γ Z)
    (hs : ∀ a b c, ir ≠ .struct a b c) (v : JV) (s : GoVal) (e : Option Err) (s' : GoVal) (h : runFill (Γ.methods k) ir v s = .ok (e, s')) :
    s'.extent ≤ max s.extent Z + Z + gr K v := by
  have hp := s.extent_pos
  cases ir with
  | struct a b c => exact absurd rfl (hs a b c)
  | map star val x =>
    simp only [runFill] at h
    split at h
    · simp at h; rw [← h.2]; omega
    · split at h
      · simp at h; rw [← h.2]; omega
      · rename_i kvs hs
        have : v = .obj kvs := by cases v <;> simp [JV.getObj] at hs; rw [hs]
        subst this
        obtain ⟨⟨e', m⟩, hm, h⟩ := Out.bind_eq_ok.1 h
        simp at h; rw [← h.2]
        have := mapLoop_extent hM hK (fun v r hr => runExtr_extent hM hK x hb 0 v .nil r hr) star val kvs [] e' m hm
        have := gr_obj K kvs
        simp only [GoVal.extent, entryExtents] at *
        omega
  | list len elt x =>
    cases len with
    | none =>
      simp only [runFill] at h
      split at h
      · simp at h; rw [← h.2]; omega
      · split at h
        · simp at h; rw [← h.2]; omega
        · rename_i l hs
          have : v = .arr l := by cases v <;> simp [JV.getArr] at hs; rw [hs]
          subst this
          obtain ⟨z, hz, h⟩ := Out.bind_eq_ok.1 h
          obtain ⟨⟨stop, n, cells⟩, hl, h⟩ := Out.bind_eq_ok.1 h
          simp at h; rw [← h.2]
          have hzle := hb.1 k z hz
          have h1 := sliceLoop_fresh (K := K) (z := z) (by omega) (fun i a r hr => by
            have := listRound_extent hM hK hb.2 elt i a z r hr
            have := gr_add K a
            omega) l 0 stop n cells hl
          have := gr_arr K l
          simp only [GoVal.extent, extents]
          omega
    | some n =>
      simp only [runFill] at h
      split at h
      · simp at h; rw [← h.2]; omega
      · split at h
        · simp at h; rw [← h.2]; omega
        · rename_i l hs
          have : v = .arr l := by cases v <;> simp [JV.getArr] at hs; rw [hs]
          subst this
          split at h
          · simp at h; rw [← h.2]; omega
          · cases s <;> simp only [reduceCtorEq] at h
            rename_i cells0
            obtain ⟨⟨stop, n, cells⟩, hl, h⟩ := Out.bind_eq_ok.1 h
            simp at h; rw [← h.2]
            have h1 := sliceLoop_grow (K := K) (fun i a c r hr => by
              have := listRound_extent hM hK hb.2 elt i a c r hr
              omega) l 0 cells0 stop n cells hl
            have := gr_arr K l
            simp only [GoVal.extent]
            omega
  | bytes len =>
    simp only [runFill] at h
    have := bytesFill_extent (K := K) (by omega) len v s e s' h
    omega
  | transit t x =>
    simp only [runFill] at h
    obtain ⟨r, hr, h⟩ := Out.bind_eq_ok.1 h
    have h1 := runExtr_extent hM hK x hb 0 v s r hr
    cases r with
    | ret e' c => simp at h; rw [← h.2]; simp only [TVsize] at h1; omega
    | done q c =>
      cases q with
      | error e' => simp at h; rw [← h.2]; simp only [TVsize] at h1; omega
      | ok val =>
        simp only at h
        obtain ⟨w, hw, h⟩ := Out.bind_eq_ok.1 h
        simp at h; rw [← h.2]
        have := conv_extent hM t val w hw
        simp only [TVsize] at h1
        omega


/-! ### the constants of a package -/

def structCost (Γ : Env) (Z0 : Nat) : Nat → Nat → Nat
  | 0, _ => 0
  | k + 1, n =>
    match Γ.decl n with
    | some (.struct _ fields) => Z0 + embedCost Z0 (structCost Γ Z0 k) fields
    | _ => 0

omit [Ext] in
theorem embedCost_congr {Z0 : Nat} {D D' : Nat → Nat} : ∀ {fds : List FieldDecl},
    (∀ fd ∈ fds, ∀ m, fd.tags.jsonName = [] → pointee fd.typ = .named m → D m = D' m) → embedCost Z0 D fds = embedCost Z0 D' fds
  | [], _ => rfl
  | fd :: fds, h => by
    simp only [embedCost]
    rw [embedCost_congr fun fd' hf m hn hm => h fd' (by simp [hf]) m hn hm]
    congr 1
    split
    · rename_i hn
      split
      · rename_i m hm; rw [h fd (by simp) m hn hm]
      · rfl
    · rfl

omit [Ext] in
theorem structCost_stable {Z0 : Nat} {rank : Nat → Nat} (hr : ∀ n strict fields fd m, Γ.decl n = some (.struct strict fields) → fd ∈ fields →
    fd.tags.jsonName = [] → pointee fd.typ = .named m → rank m < rank n) :
    ∀ k n, rank n < k → structCost Γ Z0 k n = structCost Γ Z0 (k + 1) n
  | 0, n, h => absurd h (Nat.not_lt_zero _)
  | k + 1, n, h => by
    rw [structCost, structCost]
    split
    · rename_i strict fields hd
      rw [embedCost_congr fun fd hf m hn hm => structCost_stable hr k m (by have := hr n strict fields fd m hd hf hn hm; omega)]
    · rfl

omit [Ext] in
theorem list_bound (f : Nat → Nat) : ∀ L : List Nat, ∃ B, ∀ n ∈ L, f n ≤ B
  | [] => ⟨0, by simp⟩
  | a :: L => by
    obtain ⟨B, hB⟩ := list_bound f L
    refine ⟨max (f a) B, fun n hn => ?_⟩
    rcases List.mem_cons.1 hn with rfl | hn
    · omega
    · have := hB n hn; omega

theorem package_bounded (L : List Nat) : ∃ Z0, ∀ Z, Z0 ≤ Z → ∀ n ∈ L, ∀ d, Γ.decl n = some d → ∀ k ir, genFill Γ k d = .ok ir → ir.bounded Γ Z := by
  induction L with
  | nil => exact ⟨0, by simp⟩
  | cons a L ih =>
    obtain ⟨B, hB⟩ := ih
    cases ha : Γ.decl a with
    | none =>
      refine ⟨B, fun Z hZ n hn d hd => ?_⟩
      rcases List.mem_cons.1 hn with rfl | hn
      · rw [ha] at hd; cases hd
      · exact hB Z hZ n hn d hd
    | some d0 =>
      obtain ⟨C, hC⟩ := decl_bounded_exists (Γ := Γ) d0
      refine ⟨max B C, fun Z hZ n hn d hd => ?_⟩
      rcases List.mem_cons.1 hn with rfl | hn
      · rw [ha] at hd; cases hd; exact hC Z (by omega)
      · exact hB Z (by omega) n hn d hd

omit [Ext] in
theorem pairwise_of_get {α : Type} {R : α → α → Prop} : ∀ {l : List α}, (∀ (i j : Nat) a b, i < j → l[i]? = some a → l[j]? = some b → R a b) → l.Pairwise R
  | [], _ => .nil
  | x :: xs, h => by
    refine .cons (fun y hy => ?_) (pairwise_of_get fun i j a b hij ha hb => h (i + 1) (j + 1) a b (by omega) (by simpa using ha) (by simpa using hb))
    obtain ⟨j, hj, he⟩ := List.getElem_of_mem hy
    exact h 0 (j + 1) x y (by omega) (by simp) (by simp [hj, he])

/-- the struct and its fields read the same keys -/
theorem KeyRead.of_field {n : Nat} {strict : Bool} {fields : List FieldDecl} {fd : FieldDecl} {key : Str}
    (hd : Γ.decl n = some (.struct strict fields)) (hf : fd ∈ fields) (h : KeyOf Γ fd key) : KeyRead Γ n key := by
  rcases h with ⟨h1, h2, rfl⟩ | ⟨h1, m, h2, h3⟩
  · exact .own hd hf h1 h2
  · exact .embedded hd hf h1 h2 h3

theorem slim_methods (h : ReadOnce Γ) : ∃ Z K D, 2 * Z + 3 ≤ K ∧ ∀ k, Slim Γ Z K D (Γ.methods k) := by
  obtain ⟨L, hL⟩ := h.finite
  obtain ⟨rank, hrank⟩ := h.acyclic
  obtain ⟨F, hF⟩ := h.foreign
  obtain ⟨A, hA⟩ := package_bounded (Γ := Γ) L
  obtain ⟨R, hR⟩ := list_bound rank L
  let Z0 := max A (max F 1)
  let D := structCost Γ Z0 (R + 1)
  obtain ⟨B, hB⟩ := list_bound D L
  let Z := max Z0 B
  have hZ0 : A ≤ Z0 ∧ F ≤ Z0 ∧ 1 ≤ Z0 := by simp only [Z0]; omega
  have hZ : Z0 ≤ Z ∧ B ≤ Z := by simp only [Z]; omega
  clear_value Z0 Z
  have hD : ∀ n strict fields, Γ.decl n = some (.struct strict fields) → D n = Z0 + embedCost Z0 D fields := by
    intro n strict fields hd
    have h1 := structCost_stable (Z0 := Z0) hrank (R + 1) n (by have := hR n (hL n _ hd); omega)
    have h2 : structCost Γ Z0 (R + 1 + 1) n = Z0 + embedCost Z0 D fields := by rw [structCost, hd]
    exact h1.trans h2
  clear_value D
  refine ⟨Z, 2 * Z + 3, D, Nat.le_refl _, fun k => ?_⟩
  induction k with
  | zero =>
    refine ⟨by omega, fun n v w hv => ?_, fun n v s e s' hv => ?_, fun n strict fields _ v s e s' hv => ?_⟩ <;>
      simp [Env.methods, Methods.loop] at hv
  | succ k ih =>
    -- structs
    have hstruct : ∀ n strict fields, Γ.decl n = some (.struct strict fields) → ∀ v s e s', (Γ.methods (k + 1) n).fill v s = .ok (e, s') →
        s'.extent ≤ s.extent + D n + (2 * Z + 3) * weight (KeyRead Γ n) v := by
      intro n strict fields hd v s e s' hfill
      rw [methods_struct hd] at hfill
      obtain ⟨fs, hfs, hfill⟩ := Out.bind_eq_ok.1 hfill
      have hgen : genFill Γ k (.struct strict fields) = .ok (.struct (fields.map (·.tags.jsonName)) strict fs) := by
        simp only [genFill, hfs, Out.ok_bind, Out.pure_eq]
      have hb := hA Z (by omega) n (hL n _ hd) _ hd k _ hgen
      have hb0 := hA Z0 (by omega) n (hL n _ hd) _ hd k _ hgen
      cases s <;> simp only [runFill, reduceCtorEq] at hfill
      rename_i gs _
      split at hfill
      · simp at hfill; rw [← hfill.2]; omega
      · obtain ⟨⟨e', gs'⟩, hrun, hfill⟩ := Out.bind_eq_ok.1 hfill
        simp at hfill; rw [← hfill.2]
        have h1 := runFields_extent ih (Nat.le_refl _) hZ.1 v fields fs hfs (fun f hf => ⟨hb.1 f hf, hb0.1 f hf⟩)
          (fun fd hf hn => h.embeds n strict fields fd hd hf hn)
          (pairwise_of_get fun i j a b hij ha hb key hka hkb => by
            have := h.distinct n strict fields i j a b key hd ha hb hka hkb; omega) gs e' gs' hrun
        have h2 := Nat.mul_le_mul_left (2 * Z + 3) (weight_mono (P := fun key => ∃ fd ∈ fields, KeyOf Γ fd key) (R := KeyRead Γ n)
          (fun key hk => by obtain ⟨fd, hf, hk⟩ := hk; exact .of_field hd hf hk) v)
        have h3 := hD n strict fields hd
        have h4 := hb0.2
        simp only [GoVal.extent]
        omega
    refine ⟨by omega, fun n v w hv => ?_, fun n v s e s' hv => ?_, hstruct⟩
    · cases hd : Γ.decl n with
      | none => simp only [Env.methods, hd] at hv; exact (hF n hd).2.1 v w hv
      | some d =>
        simp only [Env.methods, hd] at hv
        cases d with
        | struct strict fields => simp only [declMethods, Out.ok.injEq] at hv; rw [hv]; exact Nat.le_refl _
        | «alias» t => simp only [declMethods] at hv; exact conv_extent ih t v w hv
    · cases hd : Γ.decl n with
      | none =>
        simp only [Env.methods, hd] at hv
        have h1 := (hF n hd).2.2 v s e s' hv
        have h2 := gr_add F v
        have h3 : gr F v ≤ gr (2 * Z + 3) v := Nat.mul_le_mul_right _ (by omega)
        omega
      | some d =>
        cases d with
        | struct strict fields =>
          have h1 := hstruct n strict fields hd v s e s' hv
          have h2 : (2 * Z + 3) * weight (KeyRead Γ n) v ≤ gr (2 * Z + 3) v := Nat.mul_le_mul_left _ (weight_le _ v)
          have h3 := hB n (hL n _ hd)
          omega
        | «alias» t =>
          simp only [Env.methods, hd, declMethods] at hv
          obtain ⟨ir, hir, hv⟩ := Out.bind_eq_ok.1 hv
          refine runFill_extent ih (Nat.le_refl _) (hA Z (by omega) n (hL n _ hd) _ hd k ir hir) ?_ v s e s' hv
          intro a b c habs
          subst habs
          simp only [genFill] at hir
          split at hir
          · obtain ⟨r, _, hir⟩ := Out.bind_eq_ok.1 hir
            revert hir
            repeat' split
            all_goals simp
          · split at hir
            · simp at hir
            · split at hir
              · simp at hir
              · obtain ⟨r, _, hir⟩ := Out.bind_eq_ok.1 hir
                revert hir
                repeat' split
                all_goals simp
          · split at hir
            · simp at hir
            · split at hir
              · simp at hir
              · obtain ⟨r, _, hir⟩ := Out.bind_eq_ok.1 hir
                revert hir
                repeat' split
                all_goals simp
          · simp at hir
          · simp at hir
          · obtain ⟨r, _, hir⟩ := Out.bind_eq_ok.1 hir
            revert hir
            repeat' split
            all_goals simp

theorem fills_extent (h : ReadOnce Γ) : ∃ K, ∀ n doc old e new, Fills Γ n doc old e new → new.extent ≤ old.extent + K * doc.extent := by
  obtain ⟨Z, K, D, hK, hs⟩ := slim_methods h
  refine ⟨K, fun n doc old e new ⟨k, hf⟩ => ?_⟩
  have h1 := (hs k).fill n doc old e new hf
  have h2 := gr_add K doc
  omega

end
end VJ
