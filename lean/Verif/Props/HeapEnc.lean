import Verif.Proof.HeapClear
import Verif.Props.Heap

/-!
# C61, C62, C63: encoding, `IsZero` and `Reset` on memory that is shared
-/

namespace VJ

section
variable [Ext]

/-! ## C61: encoding does not notice sharing -/

/-- **C61** `MarshalTo` on a value in memory, however its parts are shared with each other or with
other values, returns and writes what it returns and writes on the tree the value stands for. -/
theorem C61_marshalTo {Γ : Env} {X : Nat → HMethods} (hX : ∀ n, MSim (Γ.ext n) (X n)) {n : Nat} {h : Heap} {g : GoVal} {x : HVal}
    {L : List Loc} (hr : Rep h g x L) (w : W) (e : Option EErr) (w' : W) :
    MemMarshals Γ X n (some x) h w e w' ↔ MarshalsTo Γ n (some g) w e w' := by
  simp only [MemMarshals, MarshalsTo, fun k => (hmethods_sim hX k n).marshal hr w]

/-- **C61** … and so does `MarshalJSON`, also in that it panics. -/
theorem C61_marshalJSON {Γ : Env} {X : Nat → HMethods} (hX : ∀ n, MSim (Γ.ext n) (X n)) {n : Nat} {h : Heap} {g : GoVal} {x : HVal}
    {L : List Loc} (hr : Rep h g x L) :
    (∀ r, MemMarshalJSON Γ X n (some x) h (.ok r) ↔ Marshals Γ n (some g) r) ∧
    (MemMarshalJSON Γ X n (some x) h .panic ↔ ∃ k, marshalJSON (Γ.methods k n) (some g) = .panic) := by
  have he : ∀ k, hmarshalJSON (Γ.hmethods X k n) (some x) h = marshalJSON (Γ.methods k n) (some g) := by
    intro k
    simp only [hmarshalJSON, marshalJSON, (hmethods_sim hX k n).marshal hr]
    rfl
  simp only [MemMarshalJSON, Marshals, he, implies_true, and_self]

/-- **C61** A nil receiver. -/
theorem C61_nil {Γ : Env} {X : Nat → HMethods} (hX : ∀ n, MSim (Γ.ext n) (X n)) {n : Nat} {h : Heap} (w : W) (e : Option EErr) (w' : W) :
    MemMarshals Γ X n none h w e w' ↔ MarshalsTo Γ n none w e w' := by
  simp only [MemMarshals, MarshalsTo, fun k => (hmethods_sim hX k n).marshalNil h w]

/-- **C61** `IsZero` does not notice sharing either. -/
theorem C61_isZero {Γ : Env} {X : Nat → HMethods} (hX : ∀ n, MSim (Γ.ext n) (X n)) {n : Nat} {h : Heap} {g : GoVal} {x : HVal}
    {L : List Loc} (hr : Rep h g x L) (b : Bool) : MemIsZero Γ X n x h b ↔ IsZeroIs Γ n g b := by
  simp only [MemIsZero, IsZeroIs, fun k => (hmethods_sim hX k n).isZero hr]

/-- **C61** So two values that stand for the same tree, in memories that may have nothing in common,
are encoded to the same text. -/
theorem C61_same {Γ : Env} {X : Nat → HMethods} (hX : ∀ n, MSim (Γ.ext n) (X n)) {n : Nat} {h h2 : Heap} {g : GoVal} {x x2 : HVal}
    {L L2 : List Loc} (hr : Rep h g x L) (hr2 : Rep h2 g x2 L2) (r : Except EErr Str) :
    MemMarshalJSON Γ X n (some x) h (.ok r) ↔ MemMarshalJSON Γ X n (some x2) h2 (.ok r) :=
  ((C61_marshalJSON hX hr).1 r).trans ((C61_marshalJSON hX hr2).1 r).symm

/-! ## C62: `Reset` -/

/-- **C62** Whatever is shared with whatever, and even if pointers form cycles, `Reset` changes no
cell and no map but those that are reached from the receiver through struct fields, array
elements, slices up to their length, and maps.  In particular it never writes through a pointer.
Types of other packages must keep to this too. -/
theorem C62_frame {Γ : Env} {X : Nat → HMethods} (hX : ∀ S n, MClear S (X n)) {n : Nat} {p : Spot} {h h' : Heap}
    (hf : MemResets Γ X n p h h') : MemKept (ClearTouches h p) h h' := by
  obtain ⟨k, hf⟩ := hf
  exact ((hmethods_clear (fun n => hX _ n) k n).reset p h (ClearTouches.closed h p) (.inl rfl) _ hf).1

/-- **C62** So a value of which no part is reached from the receiver is the same value after
the call, also if the receiver points to it. -/
theorem C62_others {Γ : Env} {X : Nat → HMethods} (hX : ∀ S n, MClear S (X n)) {n : Nat} {p : Spot} {h h' : Heap}
    (hf : MemResets Γ X n p h h') {q : Spot} {w : HVal} {g : GoVal} {L : List Loc} (hq : h.read q = some w)
    (hw : Rep h g w L) (hqt : ¬ ClearTouches h p (.cell q.loc q.idx))
    (hL : ∀ l ∈ L, (∀ i, ¬ ClearTouches h p (.cell l i)) ∧ ¬ ClearTouches h p (.map l)) :
    h'.read q = some w ∧ Rep h' g w L := by
  have hk := C62_frame hX hf
  exact ⟨hk.read hq hqt, hw.frame fun l hl => hk.obj (hw.lt l hl) (hL l hl).1 (hL l hl).2⟩

/-- **C62** If the receiver holds a tree of which no two parts share memory, `Reset` in memory returns
exactly if it does on the tree, the receiver then holds what `Reset` makes of the tree, again without
sharing, and nothing else has changed. -/
theorem C62_returns {Γ : Env} {X : Nat → HMethods} (hX : ∀ n, MSim (Γ.ext n) (X n)) {n : Nat} {p : Spot} {h : Heap}
    {g : GoVal} {L : List Loc} (ho : Owns h p g L) :
    (∀ h', MemResets Γ X n p h h' → ∃ g', ResetsTo Γ n g g' ∧ Post h p L g' h') ∧
    (∀ g', ResetsTo Γ n g g' → ∃ h', MemResets Γ X n p h h' ∧ Post h p L g' h') := by
  refine ⟨fun h' ⟨k, hf⟩ => ?_, fun g' ⟨k, hf⟩ => ?_⟩
  · have := (hmethods_sim hX k n).reset ho
    rw [hf] at this
    cases hr : (Γ.methods k n).reset g with
    | ok r => rw [hr] at this; exact ⟨r, ⟨k, hr⟩, this⟩
    | panic => rw [hr] at this; exact this.elim
    | loop => rw [hr] at this; exact this.elim
    | unsupp => rw [hr] at this; exact this.elim
  · have := (hmethods_sim hX k n).reset ho
    rw [hf] at this
    cases hr : (Γ.hmethods X k n).reset p h with
    | ok r => rw [hr] at this; exact ⟨r, ⟨k, hr⟩, this⟩
    | panic => rw [hr] at this; exact this.elim
    | loop => rw [hr] at this; exact this.elim
    | unsupp => rw [hr] at this; exact this.elim

/-! ## C63: copies made before `Reset` -/

/-- **C63**, partial: a variable `q`, which may have been assigned from the receiver before
(`q = *p`), keeps its value when the receiver is reset, if what is in the receiver contains no
slice and no map except behind pointers.  Missing: receivers with slices, bytes or maps, for which it is false
(`C63_slice_changes`, `C63_bytes_change`, `C63_map_changes`). -/
theorem C63_copy_partial {Γ : Env} {X : Nat → HMethods} (hX : ∀ S n, MClear S (X n)) {n : Nat} {p q : Spot} {h h' : Heap}
    (hf : MemResets Γ X n p h h') {u w : HVal} {g : GoVal} {L : List Loc}
    (hu : h.read (.cell p.loc p.idx) = some u) (hno : ∀ x, ¬ ClearReach h u x) (hq : h.read q = some w)
    (hqp : q.loc ≠ p.loc ∨ q.idx ≠ p.idx) (hw : Rep h g w L) (hpL : p.loc ∉ L) : h'.read q = some w ∧ Rep h' g w L := by
  have hT : ∀ x, ClearTouches h p x → x = .cell p.loc p.idx ∨ ∃ l, h.size ≤ l ∧ (x = .map l ∨ ∃ i, x = .cell l i) := by
    rintro x (hx | ⟨u', hu', hx⟩ | hx)
    · exact .inl hx
    · rw [hu] at hu'; cases hu'; exact absurd hx (hno x)
    · exact .inr hx
  have hc : ∀ l i, ClearTouches h p (.cell l i) → (l = p.loc ∧ i = p.idx) ∨ h.size ≤ l := by
    intro l i ht
    rcases hT _ ht with hx | ⟨l', hl, hx | ⟨j, hx⟩⟩
    · cases hx; exact .inl ⟨rfl, rfl⟩
    · cases hx
    · cases hx; exact .inr hl
  refine C62_others hX hf hq hw (fun ht => ?_) fun l hl => ⟨fun i ht => ?_, fun ht => ?_⟩
  · rcases hc _ _ ht with ⟨h1, h2⟩ | h1
    · rcases hqp with h3 | h3
      · exact h3 h1
      · exact h3 h2
    · exact absurd (read_lt hq) (Nat.not_lt.mpr h1)
  · rcases hc _ _ ht with ⟨h1, -⟩ | h1
    · exact hpL (h1 ▸ hl)
    · exact absurd (hw.lt l hl) (Nat.not_lt.mpr h1)
  · rcases hT _ ht with hx | ⟨l', h1, hx | ⟨j, hx⟩⟩
    · cases hx
    · cases hx; exact absurd (hw.lt l hl) (Nat.not_lt.mpr h1)
    · cases hx

end

namespace Examples
open Sample

attribute [local instance] Sample.ext

theorem noX_clear (S : MemPart → Prop) (n : Nat) : MClear S (noX n) := ⟨OutAll.unsupp, fun _ _ _ _ => OutAll.unsupp⟩

/-- Two fields that refer to the same array, see `both`. -/
theorem both_rep : Rep both (bothTree 9 9) (.struct [.slice 0 0 1 2, .slice 0 0 1 2]) [0, 0] := C59_shared.1

set_option maxRecDepth 20000 in
/-- C61 at work: a value whose two slices share an array is encoded like one whose slices do not. -/
theorem C61_shared : MemMarshalJSON mem noX 0 (some (.struct [.slice 0 0 1 2, .slice 0 0 1 2])) both (.ok (.ok (str "{\"a\":[9],\"b\":[9]}"))) ∧
    MemIsZero mem noX 0 (.struct [.slice 0 0 1 2, .slice 0 0 1 2]) both false :=
  ⟨((C61_marshalJSON noX_sim both_rep).1 _).2 ⟨5, rfl⟩, (C61_isZero noX_sim both_rep _).2 ⟨5, rfl⟩⟩

set_option maxRecDepth 20000 in
/-- C61_nil at work. -/
example : MemMarshals mem noX 1 none ring W.empty none (W.empty.raw (str "null")) := (C61_nil noX_sim _ _ _).2 ⟨5, rfl⟩

/-- Rings that point to each other, with no way out. -/
def Circle (h : Heap) (P : Loc → Prop) : Prop :=
  ∀ l, P l → ∃ a l' s, h.objs[l]? = some (.cells [.struct [.int a, .ptr l', s]]) ∧ P l'

/-- The trees C61 speaks of are finite.  Values with a cycle of pointers, of any length, have none: `MarshalJSON` calls itself
without end, whatever the number of calls the stack has room for. -/
theorem C61_circle {h : Heap} {P : Loc → Prop} (hP : Circle h P) : ∀ (k : Nat) (l : Loc) (v : HVal), P l → h.read (.cell l 0) = some v →
    ∀ w, (mem.hmethods noX k 1).marshalTo (some v) h w = .loop
  | 0, _, _, _, _, _ => rfl
  | k + 1, l, v, hl, hv, w => by
    obtain ⟨a, l', s, ho, hl'⟩ := hP l hl
    have hv' : v = .struct [.int a, .ptr l', s] := by
      simp only [Heap.read, Spot.cell, ho, HVal.at] at hv
      simpa using hv.symm
    obtain ⟨a2, l2, s2, ho2, -⟩ := hP l' hl'
    have hr2 : h.read (.cell l' 0) = some (.struct [.int a2, .ptr l2, s2]) := by simp [Heap.read, Spot.cell, ho2, HVal.at]
    have ih := C61_circle hP k l' _ hl' hr2
    subst hv'
    have hg : genMarshal mem (.struct false [⟨.prim .int8, tag "v"⟩, ⟨.star (.named 1), tag "next"⟩, ⟨.slice (.prim .int8), tag "l"⟩]) =
        .ok (.struct [⟨str "v", some .neZero, .prim .int 0, some (str "0", true)⟩, ⟨str "next", some .neZero, .struct 1 true, some (str "null", false)⟩,
          ⟨str "l", some .neZero, .arr .int, some (str "null", true)⟩]) := rfl
    have hd : mem.decl 1 = some (.struct false [⟨.prim .int8, tag "v"⟩, ⟨.star (.named 1), tag "next"⟩, ⟨.slice (.prim .int8), tag "l"⟩]) := rfl
    have hfst : ∀ wc w, ∃ wc' w', hrunBlk (mem.hmethods noX k) ⟨str "v", some .neZero, .prim .int 0, some (str "0", true)⟩ (.int a) h wc w =
        .ok (none, wc', w') := by
      intro wc w
      by_cases ha : a = 0 <;>
        simp [hrunBlk, hrunCond, heqZero, hrunBody, hderef, ha]
    simp only [Env.hmethods, hd, hdeclMethods, hg, Out.ok_bind, hrunMarshal, hrunBlks]
    obtain ⟨wc', w', h1⟩ := hfst false (w.raw ['{'])
    have h2 : ∀ wc w, hrunBlk (mem.hmethods noX k) ⟨str "next", some .neZero, .struct 1 true, some (str "null", false)⟩ (.ptr l') h wc w = .loop := by
      intro wc w
      simp [hrunBlk, hrunCond, heqZero, hrunBody, hderef, Heap.deref, ho2, ih]
    rw [h1]
    simp only [Out.ok_bind, h2]
    rfl

/-- `ring` is one. -/
theorem C61_ring (r : Out (Except EErr Str)) (hr : r ≠ .loop) : ¬ MemMarshalJSON mem noX 1 (some (.struct [.int 1, .ptr 0, .slice 1 1 1 2])) ring r := by
  rintro ⟨k, hk⟩
  have hc : Circle ring (· = 0) := by rintro l rfl; exact ⟨1, 0, _, rfl, rfl⟩
  simp only [hmarshalJSON, C61_circle hc k 0 _ rfl rfl] at hk
  exact hr hk.symm

/-- `ring` after `Reset`. -/
def ringReset : Heap := ⟨[.cells [.struct [.int 0, .nil, .slice 1 1 0 2]], .cells [.int 7, .int 0, .int 9, .int 10]]⟩

set_option maxRecDepth 20000 in
theorem C62_ring_resets : MemResets mem noX 1 (.cell 0 0) ring ringReset := ⟨8, rfl⟩

/-- C62 on a cyclic memory with a shared array: the one cell of it that is an element is
zeroed, the others are not touched, the spare one behind it included. -/
theorem C62_ring : MemResets mem noX 1 (.cell 0 0) ring ringReset ∧ MemKept (ClearTouches ring (.cell 0 0)) ring ringReset ∧
    ∀ i, ClearTouches ring (.cell 0 0) (.cell 1 i) ↔ i = 1 := by
  refine ⟨C62_ring_resets, C62_frame noX_clear C62_ring_resets, fun i => ⟨?_, ?_⟩⟩
  · rintro (hx | ⟨v, hv, hx⟩ | ⟨l, hl, hx | ⟨j, hx⟩⟩)
    · cases hx
    · cases hv
      cases hx with
      | field hm hx =>
        simp only [List.mem_cons, List.not_mem_nil, or_false] at hm
        rcases hm with rfl | rfl | rfl
        · cases hx
        · cases hx
        · cases hx with
          | slice h1 h2 => omega
          | elem h1 h2 h3 h4 h5 =>
            rename_i j vs w
            cases h3
            have : j = 1 := by omega
            subst this
            cases h4; cases h5
    · cases hx
    · cases hx
      simp [ring, Heap.size] at hl
  · rintro rfl
    exact .inr (.inl ⟨_, rfl, .field (w := .slice 1 1 1 2) (by simp) (.slice (by omega) (by omega))⟩)

set_option maxRecDepth 200000 in
/-- C62_returns at work: the used User, laid out next to anything, is reset as on trees. -/
example (h0 : Heap) : ∃ h p L g' h', Owns h p used L ∧ (∀ l, l < h0.size → h.objs[l]? = h0.objs[l]?) ∧
    ResetsTo Sample.Γ 0 used g' ∧ MemResets Sample.Γ noX 0 p h h' ∧ Post h p L g' h' := by
  obtain ⟨h, p, L, ho, -, -, hk⟩ := C59_somewhere used h0
  have hr : ResetsTo Sample.Γ 0 used _ := ⟨8, rfl⟩
  obtain ⟨h', hf, hp⟩ := (C62_returns noX_sample ho).2 _ hr
  exact ⟨h, p, L, _, h', ho, hk, hr, hf, hp⟩

/-- A Tree that is the first of its own kids. -/
def selfKid (h : Heap) (l : Loc) : Prop := ∃ len cap, h.objs[l]? = some (.cells [.struct [.slice l 0 (len + 1) cap]])

/-- `Reset` follows slices, so a value that is an element of its own slice is never reset: the call
calls itself without end. -/
theorem C62_self {h : Heap} {l : Loc} (hs : selfKid h l) : ∀ k, (mem.hmethods noX k 5).reset (.cell l 0) h = .loop
  | 0 => rfl
  | k + 1 => by
    have ih := C62_self hs k
    obtain ⟨len, cap, ho⟩ := hs
    have hg : genResetDecl mem k (.struct false [⟨.slice (.named 5), tag "kids"⟩]) = .ok (.struct [.slice (.method 5)]) := by
      cases k <;> rfl
    have hd : mem.decl 5 = some (.struct false [⟨.slice (.named 5), tag "kids"⟩]) := rfl
    have hr : h.read (.cell l 0) = some (.struct [.slice l 0 (len + 1) cap]) := by simp [Heap.read, Spot.cell, ho, HVal.at]
    have hp : h.read ((Spot.cell l 0).part 0) = some (.slice l 0 (len + 1) cap) := by rw [read_part, hr]; rfl
    simp only [Env.hmethods, hd, hdeclMethods, hg, Out.ok_bind, hrunResetDecl, hr, List.length_cons, List.length_nil, hrunResets, hrunReset, hp,
      hresetElems, Nat.zero_lt_succ, if_true, Nat.add_zero, ih]
    rfl

/-- One is `x.Kids = …; x.Kids[0].Kids = x.Kids`. -/
example : selfKid ⟨[.cells [.struct [.slice 0 0 1 1]]]⟩ 0 := ⟨0, 1, rfl⟩

set_option maxRecDepth 20000 in
/-- C63 is false for slices: decode {"l":[1,2]} into x, assign y = x, reset x: now y holds [0,0]. -/
theorem C63_slice_changes : ∃ h1 h3 w,
    MemFills mem noX 2 (lDoc "1" "2") (.cell 0 0) xy none h1 ∧ h1.read (.cell 0 0) = some w ∧
    Rep (h1.write (.cell 1 0) w) (.struct [.slice [.int 1, .int 2] []]) w [2] ∧
    MemResets mem noX 2 (.cell 0 0) (h1.write (.cell 1 0) w) h3 ∧ h3.read (.cell 1 0) = some w ∧
    Rep h3 (.struct [.slice [.int 0, .int 0] []]) w [2] :=
  ⟨_, _, _, ⟨5, rfl⟩, rfl, rep_two rfl, ⟨5, rfl⟩, rfl, rep_two rfl⟩

set_option maxRecDepth 20000 in
/-- C63 is false for maps: decode {"m":{"a":1}} into x, assign y = x, reset x: now the map of y is empty. -/
theorem C63_map_changes : ∃ h1 h3 l,
    MemFills mem noX 3 (mDoc "a" "1") (.cell 0 0) xy none h1 ∧ h1.read (.cell 0 0) = some (.struct [.map l]) ∧
    h1.objs[l]? = some (.map [(str "a", .int 1)]) ∧
    MemResets mem noX 3 (.cell 0 0) (h1.write (.cell 1 0) (.struct [.map l])) h3 ∧
    h3.read (.cell 1 0) = some (.struct [.map l]) ∧ h3.objs[l]? = some (.map []) :=
  ⟨_, _, 2, ⟨5, rfl⟩, rfl, rfl, ⟨5, rfl⟩, rfl, rfl⟩

/-- x = {B: []byte{1, 2}} and y = x -/
def xyBytes : Heap := ⟨[.cells [.struct [.bytes 2 0 2 2]], .cells [.struct [.bytes 2 0 2 2]], .cells [.int 1, .int 2]]⟩

set_option maxRecDepth 20000 in
/-- C63 is false for bytes: y.B holds {1, 2} before and {0, 0} after x is reset. -/
theorem C63_bytes_change : ∃ h', MemResets mem noX 6 (.cell 0 0) xyBytes h' ∧
    Rep xyBytes (.struct [.bytes [1, 2]]) (.struct [.bytes 2 0 2 2]) [2] ∧
    h'.read (.cell 1 0) = some (.struct [.bytes 2 0 2 2]) ∧ Rep h' (.struct [.bytes [0, 0]]) (.struct [.bytes 2 0 2 2]) [2] := by
  have rep : ∀ (h : Heap) (a b : UInt8), h.objs[2]? = some (.cells [.int a.toNat, .int b.toNat]) →
      Rep h (.struct [.bytes [a, b]]) (.struct [.bytes 2 0 2 2]) [2] := by
    intro h a b ho
    have one : Rep h (.bytes [a, b]) (.bytes 2 0 2 2) [2] := by
      simp only [Rep]
      exact ⟨2, [], [], [], rfl, by simpa [byteCells] using ho, rfl⟩
    simp only [Rep]
    refine ⟨_, rfl, ?_⟩
    simp only [RepL]
    exact ⟨_, _, [2], [], rfl, one, ⟨rfl, rfl⟩, rfl⟩
  exact ⟨_, ⟨5, rfl⟩, rep _ 1 2 rfl, rfl, rep _ 0 0 rfl⟩

set_option maxRecDepth 20000 in
/-- C62_others and C63_copy_partial at work: x and y point to the same int; after resetting x only y
does, and the int is what it was. -/
theorem C63_pointer : ∃ h', MemResets Sample.Γ noX 41 (.cell 0 0) xyPtr h' ∧
    h'.read (.cell 0 0) = some (.struct [.nil, .int 0]) ∧
    h'.read (.cell 1 0) = some (.struct [.ptr 2, .int 6]) ∧ Rep h' (.struct [.ptr (.int 5), .int 6]) (.struct [.ptr 2, .int 6]) [2] := by
  have hf : MemResets Sample.Γ noX 41 (.cell 0 0) xyPtr
    ⟨[.cells [.struct [.nil, .int 0]], .cells [.struct [.ptr 2, .int 6]], .cells [.int 5]]⟩ := ⟨5, rfl⟩
  refine ⟨_, hf, rfl, C63_copy_partial noX_clear hf rfl ?_ rfl (.inl (by simp [Spot.cell])) ?_ (by simp [Spot.cell])⟩
  · intro x hx
    cases hx with
    | field hm hx =>
      simp only [List.mem_cons, List.not_mem_nil, or_false] at hm
      rcases hm with rfl | rfl <;> cases hx
  · simp only [Rep]
    refine ⟨_, rfl, ?_⟩
    simp only [RepL]
    refine ⟨_, _, [2], [], rfl, ?_, ⟨_, _, [], [], rfl, by simp [Rep], ⟨rfl, rfl⟩, rfl⟩, rfl⟩
    simp only [Rep]
    exact ⟨2, .int 5, [], rfl, rfl, ⟨rfl, rfl⟩, rfl⟩

end Examples

end VJ
