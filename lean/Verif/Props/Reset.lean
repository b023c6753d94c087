import Verif.Proof.AsNew
import Verif.Props.Zero

/-!
# C35 and C13: `Reset`
-/

namespace VJ
set_option linter.unusedSectionVars false

section
variable [Ext] {Γ : Env} {X : Nat → GoVal → Prop} {S : Nat → Prop}

/-! ## C35 -/

theorem reset_leaves (hP : ResetPackage Γ X S) {n : Nat} (hn : S n) (hm : ∀ u, Γ.decl n ≠ some (.alias (.map u)))
    {s : GoVal} (hs : HasType Γ X (.named n) s) :
    Term (fun k => (Γ.methods k n).reset s) (fun w => HasType Γ X (.named n) w ∧ Clears Γ (.named n) s w) := by
  have hg : Good S (.named n) := ⟨by simp [TExpr.names, hn], rfl⟩
  by_cases hc : Collection Γ n
  · rcases hc with ⟨u, hd⟩ | ⟨u, hd⟩
    · exact reset_named_slice hP hn hd hs
    · exact absurd hd (hm u)
  · exact ((reset_term hP hs hg).2 n (.named n) hc).imp fun w hw => ⟨hw.typed, hw.clears⟩

/-- **C35, partial** (types other than named maps): `Reset` returns, and what it leaves is the
zero value of the type, except that slices and maps that were there may stay, empty. -/
theorem C35_reset_partial (hP : ResetPackage Γ X S) {n : Nat} (hn : S n) (hm : ∀ u, Γ.decl n ≠ some (.alias (.map u)))
    {s : GoVal} (hs : HasType Γ X (.named n) s) :
    ∃ s', ResetsTo Γ n s s' ∧ HasType Γ X (.named n) s' ∧ Clears Γ (.named n) s s' := by
  obtain ⟨k, w, h1, h2⟩ := (reset_leaves hP hn hm hs).ok
  exact ⟨w, ⟨k, h1⟩, h2.1, h2.2⟩

/-- **C35, the exact zero value**: of a value whose slices and maps are nil, or of a type
without slices and maps (except behind pointers), `Reset` leaves the zero value. -/
theorem C35_reset_zero_partial (hP : ResetPackage Γ X S) {n : Nat} (hn : S n) (hm : ∀ u, Γ.decl n ≠ some (.alias (.map u)))
    {s : GoVal} (hs : HasType Γ X (.named n) s) (h : NoStorage s ∨ NoCollections Γ (.named n)) :
    ∃ z, ResetsTo Γ n s z ∧ ZeroIs Γ n z := by
  obtain ⟨w, h1, _, h2⟩ := C35_reset_partial hP hn hm hs
  exact ⟨w, h1, h2.zero_of h⟩

/-- **C35, `IsZero`**: in that case `IsZero` is then true, and the value encodes as a newly
declared one. -/
theorem C35_isZero_partial (hP : ResetPackage Γ X S) (hZ : ZeroPackage Γ X S) (hA : NoArrayTests Γ S) {n : Nat} (hn : S n)
    (hm : ∀ u, Γ.decl n ≠ some (.alias (.map u))) {s : GoVal} (hs : HasType Γ X (.named n) s)
    (h : NoStorage s ∨ NoCollections Γ (.named n)) {s' : GoVal} (hr : ResetsTo Γ n s s') :
    IsZeroIs Γ n s' true ∧ ∀ z r, ZeroIs Γ n z → (Marshals Γ n (some s') r ↔ Marshals Γ n (some z) r) := by
  obtain ⟨w, h1, ht, h2⟩ := C35_reset_partial hP hn hm hs
  cases reset_unique hr h1
  have hz : ZeroIs Γ n s' := h2.zero_of h
  refine ⟨C34_zero_value_partial hZ hA hn ht hz, fun z r hz' => ?_⟩
  cases zero_unique hz hz'
  exact Iff.rfl

/-- **C35, named slices**: whatever they held, `IsZero` is true after `Reset`. -/
theorem C35_named_slice (hP : ResetPackage Γ X S) {n : Nat} {u : TExpr} (hn : S n) (hd : Γ.decl n = some (.alias (.slice u)))
    {s s' : GoVal} (hs : HasType Γ X (.named n) s) (hr : ResetsTo Γ n s s') : IsZeroIs Γ n s' true := by
  obtain ⟨k, w, h1, _, h2⟩ := (reset_named_slice hP hn hd hs).ok
  cases reset_unique hr ⟨k, h1⟩
  have base : ∀ {old new}, Clears Γ (.slice u) old new → new.len = .ok 0 := by
    intro old new h
    cases h with
    | zero h => obtain ⟨_, h⟩ := h; cases h; rfl
    | slice => rfl
    | bytes => rfl
    | «alias» he | struct he => cases he
  have hl : s'.len = .ok 0 := by
    cases h2 with
    | zero h => exact base (Clears.zero (old := s) ((zeroIs_alias hd).1 h))
    | «alias» he hd' h => cases he; rw [hd] at hd'; cases hd'; exact base h
    | struct he hd' => cases he; rw [hd] at hd'; cases hd'
  exact ⟨1, by rw [methods_some hd]; simp [declMethods, genZero, runZero, hl]⟩

/-- **C35, named maps**: `Reset` clears the values but keeps every key. -/
theorem C35_named_map_keeps_keys (hP : ResetPackage Γ X S) {n : Nat} {u : TExpr} (hn : S n) (hd : Γ.decl n = some (.alias (.map u)))
    {kvs : List (Str × GoVal)} (hs : HasType Γ X (.named n) (.map kvs)) :
    ∃ kvs', ResetsTo Γ n (.map kvs) (.map kvs') ∧ kvs'.map (·.1) = kvs.map (·.1) ∧
      ∀ (i : Nat) (a b : Str × GoVal), kvs[i]? = some a → kvs'[i]? = some b → Clears Γ u a.2 b.2 := by
  obtain ⟨k, w, h1, _, kvs', rfl, h2, h3⟩ := (reset_named_map hP hn hd hs).ok
  exact ⟨kvs', ⟨k, h1⟩, h2, h3⟩

/-! ## C13 -/

/-- The two receivers cannot be told apart by decoding `doc` into them: the same error, a
panic in both or none, and if there is no error values that differ at most in empty
collections being nil or not. -/
def DecodeAlike (Γ : Env) (n : Nat) (s z : GoVal) (doc : JV) : Prop :=
  (∀ e w, Fills Γ n doc s e w → ∃ w', Fills Γ n doc z e w' ∧ (e = none → SameButEmpty w w')) ∧
  (∀ e w', Fills Γ n doc z e w' → ∃ w, Fills Γ n doc s e w ∧ (e = none → SameButEmpty w w')) ∧
  (FillsTo Γ n doc s .panic ↔ FillsTo Γ n doc z .panic)

theorem decodeAlike_of {n : Nat} {s z : GoVal} {doc : JV}
    (h : ∀ k, Alike FillAlike ((Γ.methods k n).fill doc s) ((Γ.methods k n).fill doc z)) : DecodeAlike Γ n s z doc := by
  refine ⟨?_, ?_, ?_⟩
  · rintro e w ⟨k, hk⟩
    have := h k
    rw [hk] at this
    cases hz : (Γ.methods k n).fill doc z with
    | ok r => rw [hz] at this; obtain ⟨h1, h2⟩ := this; cases h1; exact ⟨r.2, ⟨k, hz⟩, h2⟩
    | _ => rw [hz] at this; exact this.elim
  · rintro e w ⟨k, hk⟩
    have := h k
    rw [hk] at this
    cases hz : (Γ.methods k n).fill doc s with
    | ok r => rw [hz] at this; obtain ⟨h1, h2⟩ := this; cases h1; exact ⟨r.2, ⟨k, hz⟩, h2⟩
    | _ => rw [hz] at this; exact this.elim
  · constructor
    · rintro ⟨h0, k, hk⟩
      have := h k
      rw [hk] at this
      refine ⟨h0, k, ?_⟩
      cases hz : (Γ.methods k n).fill doc z with
      | panic => rfl
      | _ => rw [hz] at this; exact this.elim
    · rintro ⟨h0, k, hk⟩
      have := h k
      rw [hk] at this
      refine ⟨h0, k, ?_⟩
      cases hz : (Γ.methods k n).fill doc s with
      | panic => rfl
      | _ => rw [hz] at this; exact this.elim

/-- **C13, partial** (receivers with no leftovers beyond the length of their slices, other
types than named slices and maps): after `Reset`, decoding any document gives the same error
as decoding it into a new receiver, and if it succeeds the same value, where an empty slice or
map may stand for a nil one. -/
theorem C13_reset_as_new_partial (hP : Package Γ X S) (hR : ResetPackage Γ X S) {n : Nat} (hn : S n) (hc : ¬ Collection Γ n)
    {s s' z : GoVal} (hs : HasType Γ X (.named n) s) (hl : NoLeftovers Γ (.named n) s) (hr : ResetsTo Γ n s s') (hz : ZeroIs Γ n z)
    (doc : JV) : DecodeAlike Γ n s' z doc := by
  have hg : Good S (.named n) := ⟨by simp [TExpr.names, hn], rfl⟩
  obtain ⟨k, w, h1, h2⟩ := ((reset_term hR hs hg).2 n (.named n) hc).ok
  cases reset_unique hr ⟨k, h1⟩
  exact decodeAlike_of fun k => fill_alike hP k n s' z doc hn (h2.asNew hl) hz

/-- **C13, named slices**: decoding makes a new slice every time, so nothing of the past can
show; `null` leaves the empty slice. -/
theorem C13_named_slice (hR : ResetPackage Γ X S) {n : Nat} {u : TExpr} (hn : S n)
    (hd : Γ.decl n = some (.alias (.slice u))) {s s' : GoVal} (hs : HasType Γ X (.named n) s) (hr : ResetsTo Γ n s s')
    (doc : JV) : DecodeAlike Γ n s' .nil doc := by
  obtain ⟨k, w, h1, _, h2⟩ := (reset_named_slice hR hn hd hs).ok
  cases reset_unique hr ⟨k, h1⟩
  have base : ∀ {old new}, Clears Γ (.slice u) old new → SameButEmpty new .nil := by
    intro old new h
    cases h with
    | zero h => obtain ⟨_, h⟩ := h; cases h; exact .refl _
    | slice => exact .emptySlice
    | bytes => exact .emptyBytes
    | «alias» he | struct he => cases he
  have hsame : SameButEmpty s' .nil := by
    cases h2 with
    | zero h => exact base (Clears.zero (old := s) ((zeroIs_alias hd).1 h))
    | «alias» he hd' h => cases he; rw [hd] at hd'; cases hd'; exact base h
    | struct he hd' => cases he; rw [hd] at hd'; cases hd'
  refine decodeAlike_of fun k => ?_
  cases k with
  | zero => trivial
  | succ k =>
    rw [methods_fill hd, methods_fill hd]
    refine .bind_same fun ir hg => ?_
    by_cases hb : u = .prim .byte
    · subst hb
      simp [genFill, TExpr.isByte] at hg
      subst hg
      simp only [runFill, bytesFill]
      split
      · exact .ok ⟨rfl, fun _ => hsame⟩
      · cases doc.getStr with
        | error c => exact .ok ⟨rfl, fun h => by cases h⟩
        | ok s =>
          simp only
          split <;> exact .ok ⟨rfl, fun _ => .refl _⟩
    · obtain ⟨_, r, _, _, _, rfl⟩ := genFill_list (len := none) hb hg
      simp only [runFill]
      split
      · exact .ok ⟨rfl, fun _ => hsame⟩
      · cases doc.getArr with
        | error c => exact .ok ⟨rfl, fun h => by cases h⟩
        | ok l => exact .refl .refl _

/-- **C13, named maps, partial** (documents other than `null`): decoding makes a new map every
time, so nothing of the past can show, with or without `Reset`. -/
theorem C13_named_map_partial {n : Nat} {u : TExpr} (hd : Γ.decl n = some (.alias (.map u))) (s z : GoVal)
    {doc : JV} (hdoc : doc.isNull = false) : DecodeAlike Γ n s z doc := by
  refine decodeAlike_of fun k => ?_
  cases k with
  | zero => trivial
  | succ k =>
    rw [methods_fill hd, methods_fill hd]
    refine .bind_same fun ir hg => ?_
    obtain ⟨r, _, _, _, rfl⟩ := genFill_mapT hg
    simp only [runFill, hdoc, Bool.false_eq_true, if_false]
    cases doc.getObj with
    | error c => exact .ok ⟨rfl, fun h => by cases h⟩
    | ok l => exact .refl .refl _

theorem inert_noLeftovers {t : TExpr} {v : GoVal} (hi : Inert Γ t) (hv : HasType Γ X t v) : NoLeftovers Γ t v := by
  cases hi with
  | ptr =>
    rcases hv.star_cases with rfl | ⟨w, rfl, _⟩
    · exact .other (by simp) (by simp)
    · exact .other (by simp) (by simp)
  | bytes h =>
    have := hv.of_is h
    cases this with
    | nilSlice => exact .other (by simp) (by simp)
    | slice hb => exact absurd rfl hb
    | bytes => exact .other (by simp) (by simp)
    | «alias» he | struct he | foreign he => cases he
  | prim h =>
    have isPrim : ∀ {t p v}, IsPrim Γ t p → HasType Γ X t v → (∀ es sp, v ≠ .slice es sp) ∧ ∀ vs, v ≠ .struct vs := by
      intro t p v h hv
      have : HasType Γ X (.prim p) v := by
        cases h with
        | self => exact hv
        | named hd => exact hv.of_alias (.named _) hd
        | sel hd => exact hv.of_alias (.sel _) hd
      cases this with
      | prim h => cases h <;> simp
      | «alias» he | struct he | foreign he => cases he
    have : (∀ es sp, v ≠ .slice es sp) ∧ ∀ vs, v ≠ .struct vs := by
      cases h with
      | base h => exact isPrim h hv
      | chain hd h => exact isPrim h (hv.of_alias (.named _) hd)
    exact .other this.1 this.2

theorem inertSlices_noLeftovers (hR : ResetPackage Γ X S) (hi : InertSlices Γ S) {t : TExpr} {v : GoVal} (hv : HasType Γ X t v)
    (hg : Good S t) (hsl : ∀ u, t = .slice u → u ≠ .prim .byte → Inert Γ u ∧ ¬ LosesErrors Γ u) : NoLeftovers Γ t v := by
  induction hv with
  | @slice t es sp hb h hs _ _ =>
    obtain ⟨h1, h2⟩ := hsl t rfl hb
    refine .slice (fun x hx => inert_noLeftovers h1 (h x hx)) ?_ (fun hn => absurd h1 hn) (fun hl => absurd hl h2)
    intro val hm
    exact h2 (Or.inr (Or.inr ⟨val, by rw [is_pointee hm (by simp)]; exact hm⟩))
  | @«alias» e t n v he hd h ih =>
    exact .alias he hd (ih (hR.alias (hg.name he) hd) fun u hu hb => hi n _ u (hg.name he) hd (by simp [Decl.types, hu]) hb)
  | @struct e n strict fields gs he hd hl h ih =>
    refine .struct he hd fun i fd g hf hgi => ih i fd g hf hgi (hR.field (hg.name he) hd (List.mem_of_getElem? hf)) fun u hu hb => ?_
    refine hi n _ u (hg.name he) hd ?_ hb
    simp only [Decl.types, List.mem_map]
    exact ⟨fd, List.mem_of_getElem? hf, hu⟩
  | foreign he hd => exact .foreign he hd
  | prim h => cases h <;> exact .other (by simp) (by simp)
  | _ => exact .other (by simp) (by simp)

theorem life_typed (hP : Package Γ X S) (hR : ResetPackage Γ X S) {n : Nat} (hn : S n) {s : GoVal}
    (h : Life Γ n s) : HasType Γ X (.named n) s := by
  induction h with
  | new hz =>
    obtain ⟨z, h1, h2⟩ := hR.zeros n hn
    cases zero_unique hz h1
    exact h2
  | decode _ hf ih =>
    exact C20_typed hP hn ih hf
  | @reset s s' _ hr ih =>
    by_cases hm : ∃ u, Γ.decl n = some (.alias (.map u))
    · obtain ⟨u, hd⟩ := hm
      rcases (ih.of_alias (.named n) hd).map_cases with rfl | ⟨kvs, rfl, _⟩
      · have : ResetsTo Γ n .nil .nil := by
          obtain ⟨k, ir, hg⟩ := hR.generated n _ hn hd
          refine ⟨k + 1, ?_⟩
          rw [methods_some hd]
          simp only [declMethods, hg, Out.ok_bind]
          simp only [genResetDecl] at hg
          obtain ⟨x, _, hg⟩ := Out.bind_eq_ok.1 hg
          simp only [Out.pure_eq, Out.ok.injEq] at hg
          subst hg
          rfl
        cases reset_unique hr this
        exact ih
      · obtain ⟨k, w, h1, h2, _⟩ := (reset_named_map hR hn hd ih).ok
        cases reset_unique hr ⟨k, h1⟩
        exact h2
    · obtain ⟨w, h1, h2, _⟩ := C35_reset_partial hR hn (fun u hu => hm ⟨u, hu⟩) ih
      cases reset_unique hr h1
      exact h2

/-- **C13 for histories, partial** (slices of scalars, strings, byte slices and pointers; no
named maps): after any history of decodes and resets, `Reset` makes the receiver as good as a
new one, for every document. -/
theorem C13_history_partial (hP : Package Γ X S) (hR : ResetPackage Γ X S) (hi : InertSlices Γ S)
    {n : Nat} (hn : S n) (hm : ∀ u, Γ.decl n ≠ some (.alias (.map u))) {s s' z : GoVal} (hlife : Life Γ n s)
    (hr : ResetsTo Γ n s s') (hz : ZeroIs Γ n z) (doc : JV) : DecodeAlike Γ n s' z doc := by
  have hs := life_typed hP hR hn hlife
  have hg : Good S (.named n) := ⟨by simp [TExpr.names, hn], rfl⟩
  by_cases hc : Collection Γ n
  · rcases hc with ⟨u, hd⟩ | ⟨u, hd⟩
    · obtain ⟨_, hz⟩ := (zeroIs_alias hd).1 hz
      cases hz
      exact C13_named_slice hR hn hd hs hr doc
    · exact absurd hd (hm u)
  · exact C13_reset_as_new_partial hP hR hn hc hs (inertSlices_noLeftovers hR hi hs hg (by simp)) hr hz doc

end

namespace Examples
open Sample
attribute [local instance] Sample.ext

set_option maxRecDepth 200000 in
/-- the sample package satisfies the hypotheses about `Reset` … -/
theorem reset_package : ResetPackage Γ NoForeign PlainNames where
  closed := plain_package.closed
  noAnon := plain_package.noAnon
  generated n d hn hd := by
    have h : ∀ n ∈ plainNames, ∀ d ∈ Γ.decl n, isOk (genResetDecl Γ 5 d) = true := by decide
    have := h n hn d hd
    cases hg : genResetDecl Γ 5 d with
    | ok ir => exact ⟨5, ir, hg⟩
    | _ => rw [hg] at this; cases this
  zeros n hn := by
    obtain ⟨k, z, h1, h2⟩ := (plain_package.zero hn (.named n)).ok
    exact ⟨z, ⟨k, h1⟩, h2⟩
  foreign n v hn hd hx := hx.elim

/-- … with a non-trivial case: a receiver that holds things, and what `Reset` leaves of it -/
example : ∃ s', ResetsTo Γ 0 used s' ∧ HasType Γ NoForeign (.named 0) s' ∧ Clears Γ (.named 0) used s' :=
  C35_reset_partial reset_package (by simp [PlainNames, plainNames]) (by intro u h; cases h) used_typed

set_option maxRecDepth 200000 in
/-- … which is, in full: -/
example : ResetsTo Γ 30 (.struct [.slice [.int 1, .int 2] [.int 3]]) (.struct [.slice [] [.int 0, .int 0, .int 3]]) := ⟨5, rfl⟩

/-- a struct of scalars and pointers is exactly zero again -/
example : ∃ z, ResetsTo Γ 35 (.struct [.ptr (.struct [.int 5])]) z ∧ ZeroIs Γ 35 z :=
  C35_reset_zero_partial reset_package (by simp [PlainNames, plainNames]) (by intro u h; cases h)
    (typed_struct rfl (.cons (.ptr (typed_struct rfl (.cons (.prim (.int rfl (by simp [Prim.inRange]))) .nil))) .nil))
    (Or.inr (.struct (.named 35) rfl (by simp; exact .star _)))

set_option maxRecDepth 200000 in
/-- **C35 fails** for a struct whose slice is not nil: it is not zero after `Reset`, and does
not encode as a new one. -/
theorem C35_slice_not_zero : ResetsTo Γ 30 (.struct [.slice [.int 1] []]) (.struct [.slice [] [.int 0]]) ∧
    IsZeroIs Γ 30 (.struct [.slice [] [.int 0]]) false ∧
    Marshals Γ 30 (some (.struct [.slice [] [.int 0]])) (.ok (str "{\"l\":[]}")) ∧
    ZeroIs Γ 30 (.struct [.nil]) ∧ Marshals Γ 30 (some (.struct [.nil])) (.ok (str "{\"l\":null}")) :=
  ⟨⟨5, rfl⟩, ⟨5, rfl⟩, ⟨5, rfl⟩, ⟨5, rfl⟩, ⟨5, rfl⟩⟩

set_option maxRecDepth 200000 in
/-- **C35 fails** for named maps: the keys stay. -/
theorem C35_named_map_not_zero : ResetsTo Γ 26 (.map [(str "a", .ptr (.struct [.int 1]))]) (.map [(str "a", .nil)]) ∧
    IsZeroIs Γ 26 (.map [(str "a", .nil)]) false ∧ Marshals Γ 26 (some (.map [(str "a", .nil)])) (.ok (str "{\"a\":null}")) :=
  ⟨⟨5, rfl⟩, ⟨5, rfl⟩, ⟨5, rfl⟩⟩

/-- the types with slices of inert elements only -/
def inertNames : List Nat := [2, 20, 21, 24, 26, 30, 31, 32, 33, 35]

set_option maxRecDepth 200000 in
theorem inert_package : Package Γ NoForeign (· ∈ inertNames) where
  closed n d t m hn hd ht hm := by
    have h : ∀ n ∈ inertNames, ∀ d ∈ Γ.decl n, ∀ t ∈ d.types, ∀ m ∈ t.names, m ∈ inertNames := by decide
    exact h n hn d hd t ht m hm
  decoders n hn h := by
    have hp : ∀ n ∈ inertNames, n ∈ plainNames := by decide
    exact plain_package.decoders n (hp n hn) h
  noAnon n d t hn hd ht := by
    have hp : ∀ n ∈ inertNames, n ∈ plainNames := by decide
    exact plain_package.noAnon n d t (hp n hn) hd ht
  acyclic := by
    have hp : ∀ n ∈ inertNames, n ∈ plainNames := by decide
    obtain ⟨r, hr⟩ := plain_package.acyclic
    exact ⟨r, fun n d m hn => hr n d m (hp n hn)⟩
  foreignZero n hn hd := by
    have h : ∀ n ∈ inertNames, (Γ.decl n).isSome = true := by decide
    have := h n hn; rw [hd] at this; cases this
  foreignConv n v hn hd hx := hx.elim
  foreignFill n v s hn hd hx := hx.elim

set_option maxRecDepth 200000 in
theorem inert_reset : ResetPackage Γ NoForeign (· ∈ inertNames) where
  closed := inert_package.closed
  noAnon := inert_package.noAnon
  generated n d hn hd := by
    have hp : ∀ n ∈ inertNames, n ∈ plainNames := by decide
    exact reset_package.generated n d (hp n hn) hd
  zeros n hn := by
    have hp : ∀ n ∈ inertNames, n ∈ plainNames := by decide
    exact reset_package.zeros n (hp n hn)
  foreign n v hn hd hx := hx.elim

/-- element types of the slices in a declaration -/
def sliceElems (d : Decl) : List TExpr := d.types.filterMap fun t => match t with | .slice e => some e | _ => none

set_option maxRecDepth 200000 in
theorem inert_slices : InertSlices Γ (· ∈ inertNames) := by
  intro n d t hn hd ht hb
  have h : ∀ n ∈ inertNames, ∀ d ∈ Γ.decl n, ∀ e ∈ sliceElems d, e.isOrdinal = true := by decide
  have := h n hn d hd t (by simp only [sliceElems, List.mem_filterMap]; exact ⟨_, ht, rfl⟩)
  cases t with
  | prim p =>
    refine ⟨.prim (.base (.self p)), ?_⟩
    rintro (h | h | ⟨v, h⟩) <;> cases h
  | _ => cases this

/-- a receiver that was used, then reset, for every document -/
example (s' : GoVal) (hr : ResetsTo Γ 30 (.struct [.slice [.int 1] [.int 2]]) s') (doc : JV)
    (h : Life Γ 30 (.struct [.slice [.int 1] [.int 2]])) : DecodeAlike Γ 30 s' (.struct [.nil]) doc :=
  C13_history_partial inert_package inert_reset inert_slices (by decide) (by intro u h; cases h) h hr ⟨5, rfl⟩ doc

set_option maxRecDepth 200000 in
/-- that receiver does occur: two elements are decoded, then one -/
example : Life Γ 30 (.struct [.slice [.int 1] [.int 2]]) :=
  .decode (s := .struct [.slice [.int 3, .int 2] []]) (doc := .obj [(str "l", .arr [.num (str "1")])]) (e := none)
    (.decode (s := .struct [.nil]) (doc := .obj [(str "l", .arr [.num (str "3"), .num (str "2")])]) (e := none)
      (.new ⟨5, rfl⟩) ⟨5, rfl⟩) ⟨5, rfl⟩

set_option maxRecDepth 200000 in
/-- **C13 fails** for a slice of structs that once was longer: the element beyond the length is
not reset, and shows when the next document leaves its member out. -/
theorem C13_stale_tail :
    Fills Γ 54 (.obj [(str "l", .arr [.obj [(str "rev", .num (str "5"))]])]) (.struct [.nil]) none (.struct [.slice [.struct [.int 5]] []]) ∧
    Fills Γ 54 (.obj [(str "l", .arr [])]) (.struct [.slice [.struct [.int 5]] []]) none (.struct [.slice [] [.struct [.int 5]]]) ∧
    ResetsTo Γ 54 (.struct [.slice [] [.struct [.int 5]]]) (.struct [.slice [] [.struct [.int 5]]]) ∧
    Fills Γ 54 (.obj [(str "l", .arr [.obj []])]) (.struct [.slice [] [.struct [.int 5]]]) none (.struct [.slice [.struct [.int 5]] []]) ∧
    Fills Γ 54 (.obj [(str "l", .arr [.obj []])]) (.struct [.nil]) none (.struct [.slice [.struct [.int 0]] []]) :=
  ⟨⟨5, rfl⟩, ⟨5, rfl⟩, ⟨5, rfl⟩, ⟨5, rfl⟩, ⟨5, rfl⟩⟩

set_option maxRecDepth 200000 in
/-- **C13 fails** for named maps and the document `null`: the old keys are still there. -/
theorem C13_named_map_null : ResetsTo Γ 26 (.map [(str "a", .ptr (.struct [.int 1]))]) (.map [(str "a", .nil)]) ∧
    Fills Γ 26 .null (.map [(str "a", .nil)]) none (.map [(str "a", .nil)]) ∧ Fills Γ 26 .null .nil none .nil :=
  ⟨⟨5, rfl⟩, ⟨5, rfl⟩, ⟨5, rfl⟩⟩

set_option maxRecDepth 200000 in
/-- After `Reset`, a decode that *fails* may leave another value than in a new receiver: the
members decoded before the error are in the map that was kept. -/
theorem C13_failed_decode_differs :
    ResetsTo Γ 31 (.struct [.map [(str "x", .int 1)]]) (.struct [.map []]) ∧
    (∃ e, Fills Γ 31 (.obj [(str "m", .obj [(str "a", .num (str "1")), (str "b", .bool true)])]) (.struct [.map []]) (some e)
        (.struct [.map [(str "a", .int 1)]]) ∧
      Fills Γ 31 (.obj [(str "m", .obj [(str "a", .num (str "1")), (str "b", .bool true)])]) (.struct [.nil]) (some e) (.struct [.nil])) :=
  ⟨⟨5, rfl⟩, _, ⟨5, rfl⟩, ⟨5, rfl⟩⟩

end Examples

end VJ
