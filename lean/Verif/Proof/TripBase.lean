import Verif.Spec.RoundTrip
import Verif.Proof.Zero
import Verif.Proof.Codecs

/-!
# Facts for the round trip
-/

namespace VJ
set_option linter.unusedSectionVars false
set_option linter.unusedSimpArgs false

/-! ### trimming -/

theorem trimAll_eq : ∀ (es : List GoVal), trimAll es = es.map GoVal.trim
  | [] => by simp [trimAll]
  | v :: vs => by simp [trimAll, trimAll_eq vs]

theorem trimMembers_eq : ∀ (kvs : List (Str × GoVal)), trimMembers kvs = kvs.map fun kv => (kv.1, kv.2.trim)
  | [] => by simp [trimMembers]
  | (k, v) :: kvs => by simp [trimMembers, trimMembers_eq kvs]

@[simp] theorem trim_ptr (v : GoVal) : (GoVal.ptr v).trim = .ptr v.trim := by simp [GoVal.trim]
@[simp] theorem trim_slice (es sp : List GoVal) : (GoVal.slice es sp).trim = .slice (es.map GoVal.trim) [] := by simp [GoVal.trim, trimAll_eq]
@[simp] theorem trim_arr (es : List GoVal) : (GoVal.arr es).trim = .arr (es.map GoVal.trim) := by simp [GoVal.trim, trimAll_eq]
@[simp] theorem trim_struct (es : List GoVal) : (GoVal.struct es).trim = .struct (es.map GoVal.trim) := by simp [GoVal.trim, trimAll_eq]
@[simp] theorem trim_map (kvs : List (Str × GoVal)) : (GoVal.map kvs).trim = .map (kvs.map fun kv => (kv.1, kv.2.trim)) := by
  simp [GoVal.trim, trimMembers_eq]
@[simp] theorem trim_nil : GoVal.nil.trim = .nil := by simp [GoVal.trim]
@[simp] theorem trim_int (i : Int) : (GoVal.int i).trim = .int i := by simp [GoVal.trim]
@[simp] theorem trim_float (f : F64) : (GoVal.float f).trim = .float f := by simp [GoVal.trim]
@[simp] theorem trim_bool (b : Bool) : (GoVal.bool b).trim = .bool b := by simp [GoVal.trim]
@[simp] theorem trim_str (s : Str) : (GoVal.str s).trim = .str s := by simp [GoVal.trim]
@[simp] theorem trim_time (t : Time) : (GoVal.time t).trim = .time t := by simp [GoVal.trim]
@[simp] theorem trim_uuid (b : List UInt8) : (GoVal.uuid b).trim = .uuid b := by simp [GoVal.trim]
@[simp] theorem trim_bytes (b : List UInt8) : (GoVal.bytes b).trim = .bytes b := by simp [GoVal.trim]
@[simp] theorem trim_barr (b : List UInt8) : (GoVal.barr b).trim = .barr b := by simp [GoVal.trim]

theorem trim_prim {p : Prim} {v : GoVal} (h : PrimTyped p v) : v.trim = v := by cases h <;> simp

variable {Γ : Env} {X : Nat → GoVal → Prop} {S : Nat → Prop} {F : Nat → Option GoVal → JV → Prop}

/-! ### scalars -/

theorem HasType.of_prim {p : Prim} {v : GoVal} (h : HasType Γ X (.prim p) v) : PrimTyped p v := by
  cases h with
  | prim h => exact h
  | «alias» he | struct he | foreign he => cases he

theorem HasType.of_isPrim {t : TExpr} {p : Prim} {v : GoVal} (h : IsPrim Γ t p) (hv : HasType Γ X t v) : PrimTyped p v := by
  cases h with
  | self => exact hv.of_prim
  | named hd => exact (hv.of_alias (.named _) hd).of_prim
  | sel hd => exact (hv.of_alias (.sel _) hd).of_prim

theorem HasType.of_primName {t : TExpr} {p : Prim} {v : GoVal} (h : PrimName Γ t p) (hv : HasType Γ X t v) : PrimTyped p v := by
  cases h with
  | base h => exact hv.of_isPrim h
  | chain hd h => exact (hv.of_alias (.named _) hd).of_isPrim h

theorem Part.isPrim {T t : TExpr} {V v : GoVal} {p : Prim} (h : Part Γ T V t v) (ht : IsPrim Γ t p) : Part Γ T V (.prim p) v := by
  cases ht with
  | self => exact h
  | named hd => exact .alias h (.named _) hd
  | sel hd => exact .alias h (.sel _) hd

theorem Part.primName {T t : TExpr} {V v : GoVal} {p : Prim} (h : Part Γ T V t v) (ht : PrimName Γ t p) : Part Γ T V (.prim p) v := by
  cases ht with
  | base ht => exact h.isPrim ht
  | chain hd ht => exact (Part.alias h (.named _) hd).isPrim ht

theorem Part.is {T t u : TExpr} {V v : GoVal} (h : Part Γ T V t v) (ht : Is Γ t u) : Part Γ T V u v := by
  cases ht with
  | self => exact h
  | named hd => exact .alias h (.named _) hd

theorem ElementIn.part {T t : TExpr} {V x : GoVal} (h : ElementIn Γ T V t x) : Part Γ T V t x := by
  cases h with
  | slice h hx => exact .slice h hx
  | array h hx => exact .array h hx
  | map h hx => exact .map h hx

theorem FieldIn.part {T : TExpr} {V g : GoVal} {fd : FieldDecl} (h : FieldIn Γ T V fd g) : Part Γ T V fd.typ g := by
  obtain ⟨e, n, strict, fields, gs, i, h1, h2, h3, h4, h5⟩ := h
  exact .field h1 h2 h3 h4 h5

theorem inRange_signed {p : Prim} (hp : p.isSigned = true) {i : Int} (h : p.inRange i) :
    -9223372036854775808 ≤ i ∧ i ≤ 9223372036854775807 := by
  cases p <;> simp_all [Prim.isSigned, Prim.inRange] <;> omega

theorem inRange_unsigned {p : Prim} (hp : p.isUnsigned = true) {i : Int} (h : p.inRange i) :
    0 ≤ i ∧ i ≤ 18446744073709551615 := by
  cases p <;> simp_all [Prim.isUnsigned, Prim.inRange] <;> omega

theorem inRange_max {p : Prim} (hp : p.isInt = true) {i : Int} (h : p.inRange i) : i ≤ p.maxValue := by
  cases p <;> simp_all [Prim.isInt, Prim.inRange, Prim.maxValue]

theorem wrapsTo_self {p : Prim} (hp : p.isInt = true) {i : Int} (h : p.inRange i) : WrapsTo p i i := by
  have := wrapsTo_wrap hp i
  rwa [Prim.wrap_inRange h] at this

variable [Ext]

theorem intToken_intStr {i z : Int} (h : IntToken (intStr i) z) : z = i := h.unique (intStr_token i)

/-- what encoding writes for a number, a bool or a string reads back -/
theorem primDec_doc {p : Prim} {v : GoVal} {jv : JV} (hp : p ≠ .byte ∧ p ≠ .rune) (hv : PrimTyped p v) (hd : ScalarDoc v jv)
    (hf : ∀ f, v = .float f → Ext.parseFloat (Ext.fmtFloat f) = some f ∧ (p = .float32 → Ext.toFloat32 f = f)) : PrimDec p jv v := by
  cases hd with
  | int i =>
    cases hv with
    | int hw hr =>
      have hcase : p.isSigned = true ∨ p.isUnsigned = true := by
        cases p <;> simp_all [Prim.isSigned, Prim.isUnsigned, Prim.isWhole]
      rcases hcase with hs | hs
      · have hi : p.isInt = true := by cases p <;> simp_all [Prim.isSigned, Prim.isInt]
        obtain ⟨h1, h2⟩ := inRange_signed hs hr
        exact .signed hs (intStr_token i) h1 h2 (wrapsTo_self hi hr)
      · have hi : p.isInt = true := by cases p <;> simp_all [Prim.isUnsigned, Prim.isInt]
        obtain ⟨h1, h2⟩ := inRange_unsigned hs hr
        obtain ⟨n, rfl⟩ : ∃ n : Nat, i = n := ⟨i.toNat, by omega⟩
        have htok := intStr_token n
        have : DecNat (intStr n) n := by
          cases h : intStr (n : Int) with
          | nil =>
            rw [h] at htok
            generalize hz : (n : Int) = z at htok
            generalize hs' : ([] : Str) = s at htok
            cases htok with
            | nonneg h' => cases h' <;> simp at hs'
            | neg h' => cases hs'
          | cons c cs =>
            rw [h] at htok
            generalize hz : (n : Int) = z at htok
            generalize hs' : c :: cs = s at htok
            cases htok with
            | nonneg h' => rw [Int.ofNat_inj.1 hz]; exact h'
            | @neg s' m h' =>
              cases hs'
              have hne : intStr (n : Int) = natStr n := by simp [intStr]
              rw [hne] at h
              have hdig := (natStr_digits n).2
              rw [h] at hdig
              obtain ⟨d, hd, hc⟩ := hdig '-' (by simp)
              have : ∀ d < 10, '-' ≠ Char.ofNat (48 + d) := by decide
              first | exact absurd hc (this d hd) | exact absurd hd (this d hc)
        exact .unsigned hs this (by omega) (wrapsTo_self hi hr)
  | float f =>
    obtain ⟨h1, h2⟩ := hf f rfl
    cases hv with
    | float64 => exact .float64 h1
    | float32 =>
      have := PrimDec.float32 h1
      rwa [h2 rfl] at this
  | bool b => cases hv; exact .bool b
  | str s => cases hv; exact .string s

theorem notTooLarge_doc {t : TExpr} {v : GoVal} {jv : JV} (hv : ∀ p, IsPrim Γ (pointee t) p → PrimTyped p v) (hd : ScalarDoc v jv)
    (hf : ∀ p f, IsPrim Γ (pointee t) p → v = .float f → Ext.parseFloat (Ext.fmtFloat f) = some f ∧ (p = .float32 → Ext.gtMaxFloat32 f = false)) :
    NotTooLarge Γ t jv := by
  intro p raw hp hraw
  subst hraw
  cases hd with
  | int i =>
    cases hv p hp with
    | int hw hr =>
      refine ⟨fun hi z hz => ?_, fun h => ?_⟩
      · rw [intToken_intStr hz]; exact inRange_max hi hr
      · subst h; cases hw
  | float f =>
    refine ⟨fun hi => ?_, fun h f' hf' => ?_⟩
    · cases hv p hp <;> cases hi
    · obtain ⟨h1, h2⟩ := hf p f hp rfl
      rw [h1] at hf'; cases hf'
      exact h2 h

theorem notTooLarge_other {t : TExpr} {jv : JV} (h : ∀ p, ¬ IsPrim Γ (pointee t) p) : NotTooLarge Γ t jv :=
  fun p _ hp => absurd hp (h p)

theorem primConv_self {p : Prim} {v : GoVal} (h : PrimTyped p v) (hf : ∀ f, v = .float f → p = .float32 → Ext.toFloat32 f = f) : p.conv v = v := by
  cases h with
  | int hp h =>
    rename_i i
    have : p.conv (.int i) = .int (p.wrap i) := by cases p <;> rfl
    rw [this, Prim.wrap_inRange h]
  | float64 f => rfl
  | float32 f => simp [Prim.conv, hf f rfl rfl]
  | bool b => rfl
  | string s => rfl

/-! ### conversions leave values of the type alone -/

theorem convIs_alias {n : Nat} {u : TExpr} (hd : Γ.decl n = some (.alias u)) {x y : GoVal} :
    ConvIs Γ n x y ↔ ∃ k, convT (Γ.methods k) u x = .ok y := by
  constructor
  · rintro ⟨k, h⟩
    cases k with
    | zero => cases h
    | succ k => rw [methods_some hd] at h; exact ⟨k, h⟩
  · rintro ⟨k, h⟩
    exact ⟨k + 1, by rw [methods_some hd]; exact h⟩

theorem conv_self (hR : TripPackage Γ X F S) (hP : Package Γ X S) {T t : TExpr} {V v : GoVal} (hv : HasType Γ X t v) (hg : Good S t)
    (hp : Part Γ T V t v) (hL : ∀ p f, Part Γ T V (.prim p) (.float f) → p = .float32 → Ext.toFloat32 f = f) :
    ∃ k, convT (Γ.methods k) t v.trim = .ok v.trim := by
  induction hv with
  | prim h =>
    refine ⟨0, ?_⟩
    rw [trim_prim h]
    simp only [convT]
    rw [primConv_self h fun f hf h32 => hL _ f (by rw [← hf]; exact hp) h32]
  | «alias» he hd h ih =>
    obtain ⟨k, hk⟩ := ih (hP.alias (hg.name he) hd) (.alias hp he hd)
    have := (convIs_alias hd).2 ⟨k, hk⟩
    obtain ⟨k', hk'⟩ := this
    exact ⟨k', by cases he <;> exact hk'⟩
  | @struct e n strict fields gs he hd hl h _ =>
    refine ⟨1, ?_⟩
    have : (Γ.methods 1 n).conv (GoVal.struct gs).trim = .ok (GoVal.struct gs).trim := by rw [methods_some hd]; rfl
    cases he <;> exact this
  | @foreign e n v he hd h =>
    refine ⟨1, ?_⟩
    have : (Γ.methods 1 n).conv v.trim = .ok v.trim := by rw [methods_none hd]; exact hR.foreignConv n v (hg.name he) hd h
    cases he <;> exact this
  | _ => exact ⟨0, by simp [convT]⟩

/-! ### zero values have no spare capacity -/

theorem trim_zeroT {M : Nat → Methods} : ∀ {t : TExpr} {z : GoVal}, (∀ n ∈ t.names, ∀ z, (M n).zero = .ok z → z.trim = z) →
    zeroT M t = .ok z → z.trim = z
  | .prim p, z, _, h => by
    simp only [zeroT, Out.ok.injEq] at h; subst h
    exact trim_prim (.zero p)
  | .named n, z, hM, h => hM n (by simp [TExpr.names]) z h
  | .sel n, z, hM, h => hM n (by simp [TExpr.names]) z h
  | .time, z, _, h => by simp only [zeroT, Out.ok.injEq] at h; subst h; simp
  | .uuid, z, _, h => by simp only [zeroT, Out.ok.injEq] at h; subst h; simp
  | .structT, z, _, h => by cases h
  | .star _, z, _, h => by simp only [zeroT, Out.ok.injEq] at h; subst h; simp
  | .slice _, z, _, h => by simp only [zeroT, Out.ok.injEq] at h; subst h; simp
  | .map _, z, _, h => by simp only [zeroT, Out.ok.injEq] at h; subst h; simp
  | .array n t, z, hM, h => by
    simp only [zeroT] at h
    split at h
    · simp only [Out.ok.injEq] at h; subst h; simp
    · obtain ⟨y, h1, h2⟩ := Out.bind_eq_ok.1 h
      simp only [Out.pure_eq, Out.ok.injEq] at h2
      subst h2
      simp [trim_zeroT (t := t) hM h1]

theorem trim_zero (hR : TripPackage Γ X F S) (hP : Package Γ X S) : ∀ (k n : Nat) (z : GoVal), S n → (Γ.methods k n).zero = .ok z → z.trim = z := by
  intro k
  induction k with
  | zero => intro n z _ h; cases h
  | succ k ih =>
    intro n z hn h
    cases hd : Γ.decl n with
    | none => rw [methods_none hd] at h; exact hR.foreignZero n z hn hd h
    | some d =>
      rw [methods_some hd] at h
      cases d with
      | «alias» t => exact trim_zeroT (fun m hm z hz => ih m z ((hP.alias hn hd).names m hm) hz) h
      | struct strict fields =>
        simp only [declMethods] at h
        obtain ⟨zs, h1, h2⟩ := Out.bind_eq_ok.1 h
        simp only [Out.pure_eq, Out.ok.injEq] at h2
        subst h2
        have key : ∀ (fds : List FieldDecl) (zs : List GoVal), (∀ fd ∈ fds, fd ∈ fields) → zeroFields (Γ.methods k) fds = .ok zs → zs.map GoVal.trim = zs := by
          intro fds
          induction fds with
          | nil => intro zs _ h; simp only [zeroFields, Out.ok.injEq] at h; subst h; rfl
          | cons fd fds ihf =>
            intro zs hsub h
            simp only [zeroFields] at h
            obtain ⟨y, h1, h⟩ := Out.bind_eq_ok.1 h
            obtain ⟨ys, h2, h⟩ := Out.bind_eq_ok.1 h
            simp only [Out.pure_eq, Out.ok.injEq] at h
            subst h
            have hf := hsub fd (by simp)
            rw [List.map_cons, ihf ys (fun fd' h' => hsub fd' (by simp [h'])) h2,
              trim_zeroT (fun m hm z hz => ih m z ((hP.field hn hd hf).names m hm) hz) h1]
        simp [key fields zs (fun _ h => h) h1]

theorem trim_zeroOf (hR : TripPackage Γ X F S) (hP : Package Γ X S) {t : TExpr} {z : GoVal} (hg : Good S t) (h : ZeroOf Γ t z) : z.trim = z := by
  obtain ⟨k, h⟩ := h
  exact trim_zeroT (fun m hm z hz => trim_zero hR hP k m z (hg.names m hm) hz) h

theorem zeroOf_exists (hP : Package Γ X S) {t : TExpr} (hg : Good S t) : ∃ z, ZeroOf Γ t z := by
  obtain ⟨k, z, h, _⟩ := (hP.zeroT hg).ok
  exact ⟨z, k, h⟩

/-! ### maps -/

theorem setAll_fresh : ∀ (l m : List (Str × GoVal)), ((m ++ l).map (·.1)).Nodup → setAll m l = m ++ l
  | [], m, _ => by simp [setAll]
  | (k, v) :: l, m, h => by
    have hk : ∀ kv ∈ m, kv.1 ≠ k := by
      intro kv hkv he
      rw [List.map_append, List.nodup_append] at h
      exact h.2.2 kv.1 (List.mem_map_of_mem hkv) k (by simp) he
    have hset : ∀ (m : List (Str × GoVal)), (∀ kv ∈ m, kv.1 ≠ k) → mapSet k v m = m ++ [(k, v)] := by
      intro m
      induction m with
      | nil => intro _; rfl
      | cons kv m ih =>
        intro hm
        obtain ⟨k', w⟩ := kv
        have := hm (k', w) (by simp)
        simp only [mapSet, this, if_false, ih fun kv h => hm kv (by simp [h]), List.cons_append]
    rw [setAll_cons, hset m hk, setAll_fresh l (m ++ [(k, v)]) (by simpa using h)]
    simp

end VJ
