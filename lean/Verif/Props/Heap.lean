import Verif.Proof.HeapMade
import Verif.Spec.Api
import Verif.Props.Sample

/-!
# C58, C59, C60: decoding into memory that is shared
-/

namespace VJ

section
variable [Ext]

/-! ## C58: what a call can change -/

/-- **C58** Whatever is shared with whatever, and even if pointers form cycles, a call of
`FillFromJSON` changes no cell and no map but those that are reached from the receiver through
struct fields, array elements, slices and maps.  In particular it never writes through a
pointer.  Types of other packages must keep to this too. -/
theorem C58_frame {Γ : Env} {X : Nat → HMethods} (hX : ∀ S n, MKeep S (X n)) {n : Nat} {v : JV} {p : Spot} {h h' : Heap}
    {e : Option Err} (hf : MemFills Γ X n v p h e h') : MemKept (Touches h p) h h' := by
  obtain ⟨k, hf⟩ := hf
  exact ((hmethods_keep (fun n => hX _ n) k n).fill v p h (Touches.closed h p) (.inl rfl) _ hf).1

/-- **C58** So a value of which no part is reached from the receiver is the same value after
the call, also if the receiver points to it. -/
theorem C58_others {Γ : Env} {X : Nat → HMethods} (hX : ∀ S n, MKeep S (X n)) {n : Nat} {v : JV} {p : Spot} {h h' : Heap}
    {e : Option Err} (hf : MemFills Γ X n v p h e h') {q : Spot} {w : HVal} {g : GoVal} {L : List Loc} (hq : h.read q = some w)
    (hw : Rep h g w L) (hqt : ¬ Touches h p (.cell q.loc q.idx))
    (hL : ∀ l ∈ L, (∀ i, ¬ Touches h p (.cell l i)) ∧ ¬ Touches h p (.map l)) :
    h'.read q = some w ∧ Rep h' g w L := by
  have hk := C58_frame hX hf
  exact ⟨hk.read hq hqt, hw.frame fun l hl => hk.obj (hw.lt l hl) (hL l hl).1 (hL l hl).2⟩

/-! ## C59: trees -/

/-- **C59** Decoding in memory and decoding trees: if the receiver holds a tree of which no two
parts share memory, a call in memory returns what the call on the tree returns, the receiver
then holds the tree of that call, again without sharing, and nothing else has changed. -/
theorem C59_returns {Γ : Env} {X : Nat → HMethods} (hX : ∀ n, MSim (Γ.ext n) (X n)) {n : Nat} {v : JV} {p : Spot} {h : Heap}
    {g : GoVal} {L : List Loc} (ho : Owns h p g L) (e : Option Err) :
    (∀ h', MemFills Γ X n v p h e h' → ∃ g', Fills Γ n v g e g' ∧ Post h p L g' h') ∧
    (∀ g', Fills Γ n v g e g' → ∃ h', MemFills Γ X n v p h e h' ∧ Post h p L g' h') := by
  refine ⟨fun h' ⟨k, hf⟩ => ?_, fun g' ⟨k, hf⟩ => ?_⟩
  · have := (hmethods_sim hX k n).fill v ho
    rw [hf] at this
    cases hr : (Γ.methods k n).fill v g with
    | ok r =>
      rw [hr] at this
      obtain ⟨h1, h2⟩ := this
      exact ⟨r.2, ⟨k, by rw [hr]; exact congrArg Out.ok (Prod.ext h1 rfl)⟩, h2⟩
    | panic => rw [hr] at this; exact this.elim
    | loop => rw [hr] at this; exact this.elim
    | unsupp => rw [hr] at this; exact this.elim
  · have := (hmethods_sim hX k n).fill v ho
    rw [hf] at this
    cases hr : (Γ.hmethods X k n).fill v p h with
    | ok r =>
      rw [hr] at this
      obtain ⟨h1, h2⟩ := this
      exact ⟨r.2, ⟨k, by rw [hr]; exact congrArg Out.ok (Prod.ext h1.symm rfl)⟩, h2⟩
    | panic => rw [hr] at this; exact this.elim
    | loop => rw [hr] at this; exact this.elim
    | unsupp => rw [hr] at this; exact this.elim

/-- **C59** … and the one panics exactly if the other does. -/
theorem C59_panics {Γ : Env} {X : Nat → HMethods} (hX : ∀ n, MSim (Γ.ext n) (X n)) {n : Nat} {v : JV} {p : Spot} {h : Heap}
    {g : GoVal} {L : List Loc} (ho : Owns h p g L) : MemPanics Γ X n v p h ↔ FillsTo Γ n v g .panic := by
  constructor
  · rintro ⟨k, hf⟩
    have := (hmethods_sim hX k n).fill v ho
    rw [hf] at this
    refine ⟨by simp, k, ?_⟩
    cases hr : (Γ.methods k n).fill v g with
    | panic => rfl
    | ok r => rw [hr] at this; exact this.elim
    | loop => rw [hr] at this; exact this.elim
    | unsupp => rw [hr] at this; exact this.elim
  · rintro ⟨-, k, hf⟩
    have := (hmethods_sim hX k n).fill v ho
    rw [hf] at this
    refine ⟨k, ?_⟩
    cases hr : (Γ.hmethods X k n).fill v p h with
    | panic => rfl
    | ok r => rw [hr] at this; exact this.elim
    | loop => rw [hr] at this; exact this.elim
    | unsupp => rw [hr] at this; exact this.elim

omit [Ext] in
/-- **C59** Every tree can be put into memory without sharing, next to anything. -/
theorem C59_somewhere (g : GoVal) (h : Heap) :
    ∃ h' p L, Owns h' p g L ∧ h.size ≤ p.loc ∧ (∀ l ∈ L, h.size ≤ l) ∧ ∀ l, l < h.size → h'.objs[l]? = h.objs[l]? := by
  obtain ⟨L, h1, h2, h3, h4⟩ := layOut_rep g h
  have hg := MemGrows.alloc (layOut g h).2 (.cells [(layOut g h).1])
  refine ⟨_, .cell (layOut g h).2.size 0, L, ⟨(layOut g h).1, ?_, h1.grow hg, h2, ?_⟩, h4.1, h3, (h4.trans hg).2⟩
  · simp [Heap.read, Spot.cell, HVal.at]
  · exact fun hm => absurd (h1.lt _ hm) (Nat.lt_irrefl _)

/-- **C59** Two variables that share no memory: decoding into one leaves the tree in the other
as it is, and they share no memory afterwards. -/
theorem C59_apart {Γ : Env} {X : Nat → HMethods} (hX : ∀ n, MSim (Γ.ext n) (X n)) {n : Nat} {v : JV} {p q : Spot} {h h' : Heap}
    {e : Option Err} {g g2 : GoVal} {L L2 : List Loc} (ho : Owns h p g L) (hq : Owns h q g2 L2)
    (hd : ∀ l ∈ L2, l ∉ L ∧ l ≠ p.loc) (hpq : q.loc ≠ p.loc ∧ q.loc ∉ L) (hf : MemFills Γ X n v p h e h') :
    ∃ g' L', Owns h' p g' L' ∧ Owns h' q g2 L2 ∧ (∀ l ∈ L2, l ∉ L' ∧ l ≠ p.loc) ∧ q.loc ∉ L' := by
  obtain ⟨g', -, L', ho', hL', u⟩ := (C59_returns hX ho e).1 h' hf
  obtain ⟨w, hr, hw, nd, np⟩ := hq
  have hlt := read_lt hr
  refine ⟨g', L', ho', ⟨w, ?_, hw.frame fun l hl => u.other l (hw.lt l hl) (hd l hl).1 (hd l hl).2, nd, np⟩,
    fun l hl => ⟨fun hm => ?_, (hd l hl).2⟩, fun hm => ?_⟩
  · rw [read_congr (u.other _ hlt hpq.2 hpq.1)]; exact hr
  · rcases hL' l hm with h1 | h1
    · exact (hd l hl).1 h1
    · exact absurd (hw.lt l hl) (Nat.not_lt.mpr h1)
  · rcases hL' _ hm with h1 | h1
    · exact hpq.2 h1
    · exact absurd hlt (Nat.not_lt.mpr h1)

/-! ## C60: copies of what was decoded before -/

/-- **C60**, partial: a variable `q`, which may have been assigned from the receiver before
(`q = *p`), keeps its value when something is decoded into the receiver again, if what is in the
receiver contains no slice and no map except behind pointers.  Missing: receivers with slice
or map fields, for which it is false (`C60_slice_changes`, `C60_map_changes`). -/
theorem C60_copy_partial {Γ : Env} {X : Nat → HMethods} (hX : ∀ S n, MKeep S (X n)) {n : Nat} {v : JV} {p q : Spot} {h h' : Heap}
    {e : Option Err} (hf : MemFills Γ X n v p h e h') {u w : HVal} {g : GoVal} {L : List Loc}
    (hu : h.read (.cell p.loc p.idx) = some u) (hno : ∀ x, ¬ Refers h u x) (hq : h.read q = some w)
    (hqp : q.loc ≠ p.loc ∨ q.idx ≠ p.idx) (hw : Rep h g w L) (hpL : p.loc ∉ L) : h'.read q = some w ∧ Rep h' g w L := by
  have hT : ∀ x, Touches h p x → x = .cell p.loc p.idx ∨ ∃ l, h.size ≤ l ∧ (x = .map l ∨ ∃ i, x = .cell l i) := by
    rintro x (hx | ⟨u', hu', hx⟩ | hx)
    · exact .inl hx
    · rw [hu] at hu'; cases hu'; exact absurd hx (hno x)
    · exact .inr hx
  have hc : ∀ l i, Touches h p (.cell l i) → (l = p.loc ∧ i = p.idx) ∨ h.size ≤ l := by
    intro l i ht
    rcases hT _ ht with hx | ⟨l', hl, hx | ⟨j, hx⟩⟩
    · cases hx; exact .inl ⟨rfl, rfl⟩
    · cases hx
    · cases hx; exact .inr hl
  refine C58_others hX hf hq hw (fun ht => ?_) fun l hl => ⟨fun i ht => ?_, fun ht => ?_⟩
  · rcases hc _ _ ht with ⟨h1, h2⟩ | h1
    · rcases hqp with h3 | h3
      · exact h3 h1
      · exact h3 h2
    · exact absurd (read_lt hq) (Nat.not_lt.mpr h1)
  · rcases hc _ _ ht with ⟨h1, -⟩ | h1
    · exact hpL (h1 ▸ hl)
    · exact absurd (hw.lt l hl) (Nat.not_lt.mpr h1)
  · rcases hT _ ht with hx | ⟨l', h1, hx | ⟨j, hx⟩⟩
    · cases hx
    · cases hx; exact absurd (hw.lt l hl) (Nat.not_lt.mpr h1)
    · cases hx

/-- **C60**, partial: a receiver whose type is declared as a slice or map (`type T []E`,
`type T map[string]E`) gets new memory with every call, so that slices and maps taken from it
before keep their contents.  Missing: slice and map fields. -/
theorem C60_declared_partial {Γ : Env} {X : Nat → HMethods} (hX : ∀ S n, MKeep S (X n)) {n : Nat} {t : TExpr}
    (hd : Γ.decl n = some (.alias t)) (ht : (∃ e, t = .slice e) ∨ ∃ e, t = .map e) {v : JV} {p q : Spot} {h h' : Heap}
    {e : Option Err} (hp : p.path = []) (hf : MemFills Γ X n v p h e h') {u w : HVal} {g : GoVal} {L : List Loc}
    (hu : h.read p = some u) (hq : h.read q = some w) (hqp : q.loc ≠ p.loc ∨ q.idx ≠ p.idx) (hw : Rep h g w L)
    (hpL : p.loc ∉ L) : h'.read q = some w ∧ Rep h' g w L := by
  obtain ⟨k, hf⟩ := hf
  cases k with
  | zero => cases hf
  | succ k =>
    simp only [Env.hmethods, hd, hdeclMethods] at hf
    cases hg : genFill Γ k (.alias t) with
    | ok ir =>
      rw [hg] at hf
      have hk : MemKept (Alone h p) h h' :=
        hrunFill_made (hmethods_keep (fun n => hX _ n) k) hp (read_lt hu) (genFill_made ht hg) v _ hf
      have hc : ∀ l i, Alone h p (.cell l i) → (l = p.loc ∧ i = p.idx) ∨ h.size ≤ l := by
        intro l i ht
        rcases ht with hx | ⟨l', hl, hx | ⟨j, hx⟩⟩
        · cases hx; exact .inl ⟨rfl, rfl⟩
        · cases hx
        · cases hx; exact .inr hl
      refine ⟨hk.read hq fun ht => ?_, hw.frame fun l hl => hk.obj (hw.lt l hl) (fun i ht => ?_) fun ht => ?_⟩
      · rcases hc _ _ ht with ⟨h1, h2⟩ | h1
        · rcases hqp with h3 | h3
          · exact h3 h1
          · exact h3 h2
        · exact absurd (read_lt hq) (Nat.not_lt.mpr h1)
      · rcases hc _ _ ht with ⟨h1, -⟩ | h1
        · exact hpL (h1 ▸ hl)
        · exact absurd (hw.lt l hl) (Nat.not_lt.mpr h1)
      · rcases ht with hx | ⟨l', h1, hx | ⟨j, hx⟩⟩
        · cases hx
        · cases hx; exact absurd (hw.lt l hl) (Nat.not_lt.mpr h1)
        · cases hx
    | panic => rw [hg] at hf; cases hf
    | loop => rw [hg] at hf; cases hf
    | unsupp => rw [hg] at hf; cases hf

end

namespace Examples
open Sample

attribute [local instance] Sample.ext

/-- 0 struct { A []int8 `json:"a"`; B []int8 `json:"b"` },
1 Ring: struct { V int8 `json:"v"`; Next *Ring `json:"next"`; L []int8 `json:"l"` },
2 struct { L []int8 `json:"l"` }, 3 struct { M map[string]int8 `json:"m"` }, 4 type Ints []int8,
5 Tree: struct { Kids []Tree `json:"kids"` }, 6 struct { B []byte `json:"b"` } -/
def mem : Env where
  decl n := match n with
    | 0 => some (.struct false [⟨.slice (.prim .int8), tag "a"⟩, ⟨.slice (.prim .int8), tag "b"⟩])
    | 1 => some (.struct false [⟨.prim .int8, tag "v"⟩, ⟨.star (.named 1), tag "next"⟩, ⟨.slice (.prim .int8), tag "l"⟩])
    | 2 => some (.struct false [⟨.slice (.prim .int8), tag "l"⟩])
    | 3 => some (.struct false [⟨.map (.prim .int8), tag "m"⟩])
    | 4 => some (.alias (.slice (.prim .int8)))
    | 5 => some (.struct false [⟨.slice (.named 5), tag "kids"⟩])
    | 6 => some (.struct false [⟨.slice (.prim .byte), tag "b"⟩])
    | _ => none
  ext _ := .unsupp

/-- no types of other packages -/
def noX : Nat → HMethods := fun _ => .unsupp

theorem noX_keep (S : MemPart → Prop) (n : Nat) : MKeep S (noX n) :=
  ⟨OutAll.unsupp, fun _ _ => OutAll.unsupp, fun _ _ _ _ _ => OutAll.unsupp⟩

theorem noX_sim (n : Nat) : MSim (mem.ext n) (noX n) := ⟨trivial, fun _ => trivial, fun _ _ => trivial, fun _ _ => rfl, fun _ _ => rfl, fun _ => rfl, fun _ => trivial⟩

def num (s : String) : JV := .num (str s)

/-- A Ring that points to itself and has a slice into the middle of an array. -/
def ring : Heap := ⟨[.cells [.struct [.int 1, .ptr 0, .slice 1 1 1 2]], .cells [.int 7, .int 8, .int 9, .int 10]]⟩

/-- {"v":5,"next":{"v":6},"l":[3]} -/
def ringDoc : JV := .obj [(str "v", num "5"), (str "next", .obj [(str "v", num "6")]), (str "l", .arr [num "3"])]

/-- The memory after decoding: the new element is in the shared array, the Ring points to a new
Ring. -/
def ring' : Heap := ⟨[.cells [.struct [.int 5, .ptr 3, .slice 1 1 1 2]], .cells [.int 7, .int 3, .int 9, .int 10],
  .cells [.struct [.int 6, .nil, .nil]], .cells [.struct [.int 6, .nil, .nil]]]⟩

set_option maxRecDepth 20000 in
theorem C58_ring_fills : MemFills mem noX 1 ringDoc (.cell 0 0) ring none ring' := ⟨8, rfl⟩

/-- C58 on a cyclic memory with a shared array: its first and last cell are not touched. -/
theorem C58_ring : MemFills mem noX 1 ringDoc (.cell 0 0) ring none ring' ∧ MemKept (Touches ring (.cell 0 0)) ring ring' ∧
    ¬ Touches ring (.cell 0 0) (.cell 1 0) ∧ Touches ring (.cell 0 0) (.cell 1 1) ∧ ¬ Touches ring (.cell 0 0) (.cell 1 3) := by
  have key : ∀ i, Touches ring (.cell 0 0) (.cell 1 i) → 1 ≤ i ∧ i < 3 := by
    rintro i (hx | ⟨v, hv, hx⟩ | ⟨l, hl, hx | ⟨j, hx⟩⟩)
    · cases hx
    · cases hv
      cases hx with
      | field hm hx =>
        simp only [List.mem_cons, List.not_mem_nil, or_false] at hm
        rcases hm with rfl | rfl | rfl
        · cases hx
        · cases hx
        · cases hx with
          | slice h1 h2 => exact ⟨h1, h2⟩
          | elem h1 h2 h3 h4 h5 =>
            rename_i j vs w
            cases h3
            have : j = 1 ∨ j = 2 := by omega
            rcases this with rfl | rfl
            · cases h4; cases h5
            · cases h4; cases h5
    · cases hx
    · cases hx
      simp [ring, Heap.size] at hl
  refine ⟨C58_ring_fills, C58_frame noX_keep C58_ring_fills, fun h => ?_, ?_, fun h => ?_⟩
  · have := key _ h; omega
  · exact .inr (.inl ⟨_, rfl, .field (w := .slice 1 1 1 2) (by simp) (.slice (by omega) (by omega))⟩)
  · have := key _ h; omega

/-- Two fields that refer to the same array. -/
def both : Heap := ⟨[.cells [.int 9, .int 8], .cells [.struct [.slice 0 0 1 2, .slice 0 0 1 2]]]⟩

/-- {"a":[1],"b":[2]} -/
def bothDoc : JV := .obj [(str "a", .arr [num "1"]), (str "b", .arr [num "2"])]

def bothTree (a b : Int) : GoVal := .struct [.slice [.int a] [.int 8], .slice [.int b] [.int 8]]

set_option maxRecDepth 20000 in
/-- C59 needs that nothing is shared: both fields hold [9]; on trees they would hold [1] and [2]
after the call, in memory they both hold [2]. -/
theorem C59_shared : Rep both (bothTree 9 9) (.struct [.slice 0 0 1 2, .slice 0 0 1 2]) [0, 0] ∧
    Fills mem 0 bothDoc (bothTree 9 9) none (bothTree 1 2) ∧
    ∃ h', MemFills mem noX 0 bothDoc (.cell 1 0) both none h' ∧ h'.read (.cell 1 0) = some (.struct [.slice 0 0 1 2, .slice 0 0 1 2]) ∧
      Rep h' (bothTree 2 2) (.struct [.slice 0 0 1 2, .slice 0 0 1 2]) [0, 0] := by
  have rep : ∀ (h : Heap) (a : Int), h.objs[0]? = some (.cells [.int a, .int 8]) →
      Rep h (bothTree a a) (.struct [.slice 0 0 1 2, .slice 0 0 1 2]) [0, 0] := by
    intro h a ho
    have one : Rep h (.slice [.int a] [.int 8]) (.slice 0 0 1 2) [0] := by
      simp only [Rep]
      refine ⟨0, [], [.int a], [.int 8], [], [], [], rfl, ho, ?_, ?_, rfl⟩
      · simp only [RepL]; exact ⟨_, _, [], [], rfl, ⟨rfl, rfl⟩, ⟨rfl, rfl⟩, rfl⟩
      · simp only [RepL]; exact ⟨_, _, [], [], rfl, ⟨rfl, rfl⟩, ⟨rfl, rfl⟩, rfl⟩
    simp only [bothTree, Rep]
    refine ⟨_, rfl, ?_⟩
    simp only [RepL]
    exact ⟨_, _, [0], [0], rfl, one, ⟨_, _, [0], [], rfl, one, ⟨rfl, rfl⟩, rfl⟩, rfl⟩
  exact ⟨rep _ 9 rfl, ⟨5, rfl⟩, _, ⟨5, rfl⟩, rfl, rep _ 2 rfl⟩

theorem noX_sample (n : Nat) : MSim (Sample.Γ.ext n) (noX n) := ⟨trivial, fun _ => trivial, fun _ _ => trivial, fun _ _ => rfl, fun _ _ => rfl, fun _ => rfl, fun _ => trivial⟩

/-- C59 at work: the used User, laid out next to anything, is decoded into as on trees. -/
example (h0 : Heap) : ∃ h p L h', Owns h p used L ∧ (∀ l, l < h0.size → h.objs[l]? = h0.objs[l]?) ∧
    MemFills Sample.Γ noX 0 ann p h none h' ∧ Post h p L annDecoded h' := by
  obtain ⟨h, p, L, ho, -, -, hk⟩ := C59_somewhere used h0
  obtain ⟨h', hf, hp⟩ := (C59_returns noX_sample ho none).2 _ ann_fills
  exact ⟨h, p, L, h', ho, hk, hf, hp⟩

/-- C59_apart: two used Users next to each other; the second is as before. -/
example : ∃ h p q L L2 h' L', Owns h p used L ∧ Owns h q used L2 ∧ MemFills Sample.Γ noX 0 ann p h none h' ∧
    Owns h' p annDecoded L' ∧ Owns h' q used L2 := by
  obtain ⟨h1, q, L2, hq, -, -, -⟩ := C59_somewhere used ⟨[]⟩
  obtain ⟨h, p, L, ho, hp, hL, hk⟩ := C59_somewhere used h1
  obtain ⟨h', hf, L', ho', -⟩ := (C59_returns noX_sample ho none).2 _ ann_fills
  obtain ⟨w, hr, hw, nd, np⟩ := hq
  have hlt := read_lt hr
  have hq' : Owns h q used L2 := ⟨w, by rw [read_congr (hk _ hlt)]; exact hr, hw.frame fun l hl => hk l (hw.lt l hl), nd, np⟩
  obtain ⟨g', L'', -, hq2, -⟩ := C59_apart noX_sample ho hq'
    (fun l hl => ⟨fun hm => absurd (hw.lt l hl) (Nat.not_lt.mpr (hL l hm)), Nat.ne_of_lt (Nat.lt_of_lt_of_le (hw.lt l hl) hp)⟩)
    ⟨Nat.ne_of_lt (Nat.lt_of_lt_of_le hlt hp), fun hm => absurd hlt (Nat.not_lt.mpr (hL _ hm))⟩ hf
  exact ⟨h, p, q, L, L2, h', L', ho, hq', hf, ho', hq2⟩

/-- x = {A: &5, B: 6} and its copy y, type 41 -/
def xyPtr : Heap := ⟨[.cells [.struct [.ptr 2, .int 6]], .cells [.struct [.ptr 2, .int 6]], .cells [.int 5]]⟩

/-- {"a":1,"b":2} -/
def abDoc : JV := .obj [(str "a", num "1"), (str "b", num "2")]

set_option maxRecDepth 20000 in
/-- C58_others and C60_copy_partial at work: x and y point to the same int; after decoding into x
they do not. -/
theorem C60_pointer : ∃ h', MemFills Sample.Γ noX 41 abDoc (.cell 0 0) xyPtr none h' ∧
    h'.read (.cell 0 0) = some (.struct [.ptr 3, .int 2]) ∧
    h'.read (.cell 1 0) = some (.struct [.ptr 2, .int 6]) ∧ Rep h' (.struct [.ptr (.int 5), .int 6]) (.struct [.ptr 2, .int 6]) [2] := by
  have hf : MemFills Sample.Γ noX 41 abDoc (.cell 0 0) xyPtr none
    ⟨[.cells [.struct [.ptr 3, .int 2]], .cells [.struct [.ptr 2, .int 6]], .cells [.int 5], .cells [.int 1]]⟩ := ⟨5, rfl⟩
  refine ⟨_, hf, rfl, C60_copy_partial noX_keep hf rfl ?_ rfl (.inl (by simp [Spot.cell])) ?_ (by simp [Spot.cell])⟩
  · intro x hx
    cases hx with
    | field hm hx =>
      simp only [List.mem_cons, List.not_mem_nil, or_false] at hm
      rcases hm with rfl | rfl <;> cases hx
  · simp only [Rep]
    refine ⟨_, rfl, ?_⟩
    simp only [RepL]
    refine ⟨_, _, [2], [], rfl, ?_, ⟨_, _, [], [], rfl, by simp [Rep], ⟨rfl, rfl⟩, rfl⟩, rfl⟩
    simp only [Rep]
    exact ⟨2, .int 5, [], rfl, rfl, ⟨rfl, rfl⟩, rfl⟩

/-- Variables x (at 0) and y (at 1), both zero. -/
def xy : Heap := ⟨[.cells [.struct [.nil]], .cells [.struct [.nil]]]⟩

/-- {"l":[…,…]} -/
def lDoc (a b : String) : JV := .obj [(str "l", .arr [num a, num b])]

theorem rep_two {h : Heap} {l : Loc} {a b : Int} (ho : h.objs[l]? = some (.cells [.int a, .int b])) :
    Rep h (.struct [.slice [.int a, .int b] []]) (.struct [.slice l 0 2 2]) [l] := by
  have one : Rep h (.slice [.int a, .int b] []) (.slice l 0 2 2) [l] := by
    simp only [Rep]
    refine ⟨l, [], [.int a, .int b], [], [], [], [], rfl, by simpa using ho, ?_, ⟨rfl, rfl⟩, rfl⟩
    simp only [RepL]
    exact ⟨_, _, [], [], rfl, ⟨rfl, rfl⟩, ⟨_, _, [], [], rfl, ⟨rfl, rfl⟩, ⟨rfl, rfl⟩, rfl⟩, rfl⟩
  simp only [Rep]
  refine ⟨_, rfl, ?_⟩
  simp only [RepL]
  exact ⟨_, _, [l], [], rfl, one, ⟨rfl, rfl⟩, rfl⟩

set_option maxRecDepth 20000 in
/-- C60 is false for slices: decode {"l":[1,2]} into x, assign y = x, decode {"l":[3,4]} into x:
now y holds [3,4]. -/
theorem C60_slice_changes : ∃ h1 h3 w,
    MemFills mem noX 2 (lDoc "1" "2") (.cell 0 0) xy none h1 ∧ h1.read (.cell 0 0) = some w ∧
    Rep (h1.write (.cell 1 0) w) (.struct [.slice [.int 1, .int 2] []]) w [2] ∧
    MemFills mem noX 2 (lDoc "3" "4") (.cell 0 0) (h1.write (.cell 1 0) w) none h3 ∧ h3.read (.cell 1 0) = some w ∧
    Rep h3 (.struct [.slice [.int 3, .int 4] []]) w [2] :=
  ⟨_, _, _, ⟨5, rfl⟩, rfl, rep_two rfl, ⟨5, rfl⟩, rfl, rep_two rfl⟩

/-- {"m":{key:val}} -/
def mDoc (k v : String) : JV := .obj [(str "m", .obj [(str k, num v)])]

set_option maxRecDepth 20000 in
/-- C60 is false for maps: decode {"m":{"a":1}} into x, assign y = x, decode {"m":{"b":2}} into x:
now y has both keys. -/
theorem C60_map_changes : ∃ h1 h3 l,
    MemFills mem noX 3 (mDoc "a" "1") (.cell 0 0) xy none h1 ∧ h1.read (.cell 0 0) = some (.struct [.map l]) ∧
    h1.objs[l]? = some (.map [(str "a", .int 1)]) ∧
    MemFills mem noX 3 (mDoc "b" "2") (.cell 0 0) (h1.write (.cell 1 0) (.struct [.map l])) none h3 ∧
    h3.read (.cell 1 0) = some (.struct [.map l]) ∧ h3.objs[l]? = some (.map [(str "a", .int 1), (str "b", .int 2)]) :=
  ⟨_, _, 2, ⟨5, rfl⟩, rfl, rfl, ⟨5, rfl⟩, rfl, rfl⟩

def ints1 : Heap := ⟨[.cells [.slice 2 0 2 2], .cells [.nil], .cells [.int 1, .int 2], .cells [.nil], .cells [.nil]]⟩
def ints2 : Heap := ints1.write (.cell 1 0) (.slice 2 0 2 2)
def ints3 : Heap := ⟨[.cells [.slice 5 0 2 2], .cells [.slice 2 0 2 2], .cells [.int 1, .int 2], .cells [.nil], .cells [.nil],
  .cells [.int 3, .int 4], .cells [.nil], .cells [.nil]]⟩

set_option maxRecDepth 20000 in
/-- C60_declared_partial at work: type Ints []int8, decode [1,2], assign, decode [3,4]: the copy
still holds [1,2]. -/
theorem C60_ints : ∃ h1 h3 w,
    MemFills mem noX 4 (.arr [num "1", num "2"]) (.cell 0 0) ⟨[.cells [.nil], .cells [.nil]]⟩ none h1 ∧ h1.read (.cell 0 0) = some w ∧
    MemFills mem noX 4 (.arr [num "3", num "4"]) (.cell 0 0) (h1.write (.cell 1 0) w) none h3 ∧ h3.read (.cell 1 0) = some w ∧
    Rep h3 (.slice [.int 1, .int 2] []) w [2] := by
  have h1 : MemFills mem noX 4 (.arr [num "1", num "2"]) (.cell 0 0) ⟨[.cells [.nil], .cells [.nil]]⟩ none ints1 := ⟨5, rfl⟩
  have h3 : MemFills mem noX 4 (.arr [num "3", num "4"]) (.cell 0 0) ints2 none ints3 := ⟨5, rfl⟩
  refine ⟨ints1, ints3, .slice 2 0 2 2, h1, rfl, h3, ?_⟩
  refine C60_declared_partial noX_keep rfl (.inl ⟨_, rfl⟩) rfl h3 rfl rfl (.inl (by simp [Spot.cell])) ?_ (by simp [Spot.cell])
  simp only [Rep]
  refine ⟨2, [], [.int 1, .int 2], [], [], [], [], rfl, rfl, ?_, by simp [RepL], rfl⟩
  simp only [RepL]
  exact ⟨_, _, [], [], rfl, by simp [Rep], ⟨_, _, [], [], rfl, by simp [Rep], ⟨rfl, rfl⟩, rfl⟩, rfl⟩

end Examples

end VJ
