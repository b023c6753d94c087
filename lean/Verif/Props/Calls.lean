import Verif.Proof.Calls
import Verif.Props.Determinism
import Verif.Props.HeapEnc
import Verif.Props.RoundTripSamples

/-!
# C74: programs that call methods on many variables
-/

namespace VJ

section
variable [Ext] {Γ : Env} {X : Nat → HMethods}

/-- A call on a variable in memory and on the tree it holds. -/
theorem memCall_iff (hX : ∀ n, MSim (Γ.ext n) (X n)) {n : Nat} {p : Spot} {h : Heap} {g : GoVal} {L : List Loc} (ho : Owns h p g L)
    (q : Req) (r : Reply) :
    (∀ h', MemCall Γ X n p h q r h' → ∃ g', TreeCall Γ n g q r g' ∧ Post h p L g' h') ∧
    (∀ g', TreeCall Γ n g q r g' → ∃ h', MemCall Γ X n p h q r h' ∧ Post h p L g' h') := by
  constructor
  · intro h' hc
    cases hc with
    | @unmarshal data _ _ e k hf =>
      simp only [hunmarshalJSON] at hf
      cases hd : parseBytes data with
      | none =>
        rw [hd] at hf
        cases hf
        exact ⟨g, .unmarshal ⟨0, by simp [unmarshalJSON, hd]⟩, .refl ho⟩
      | some v =>
        rw [hd] at hf
        obtain ⟨g', ⟨k', hg⟩, hp⟩ := (C59_returns hX ho e).1 h' ⟨k, hf⟩
        exact ⟨g', .unmarshal ⟨k', by simp [unmarshalJSON, hd, hg]⟩, hp⟩
    | fill hf =>
      obtain ⟨g', hg, hp⟩ := (C59_returns hX ho _).1 h' hf
      exact ⟨g', .fill hg, hp⟩
    | reset hf =>
      obtain ⟨g', hg, hp⟩ := (C62_returns hX ho).1 h' hf
      exact ⟨g', .reset hg, hp⟩
    | marshal hx hm =>
      obtain ⟨v, hr, hw, -⟩ := id ho
      rw [hx] at hr; cases hr
      exact ⟨g, .marshal (((C61_marshalJSON hX hw).1 _).1 hm), .refl ho⟩
    | isZero hx hz =>
      obtain ⟨v, hr, hw, -⟩ := id ho
      rw [hx] at hr; cases hr
      exact ⟨g, .isZero ((C61_isZero hX hw _).1 hz), .refl ho⟩
  · intro g' hc
    cases hc with
    | @unmarshal data _ _ e hf =>
      obtain ⟨k, hf⟩ := hf
      simp only [unmarshalJSON] at hf
      cases hd : parseBytes data with
      | none =>
        rw [hd] at hf
        cases hf
        exact ⟨h, .unmarshal (k := 0) (by simp [hunmarshalJSON, hd]), .refl ho⟩
      | some v =>
        rw [hd] at hf
        obtain ⟨h', ⟨k', hg⟩, hp⟩ := (C59_returns hX ho e).2 g' ⟨k, hf⟩
        exact ⟨h', .unmarshal (k := k') (by simp [hunmarshalJSON, hd, hg]), hp⟩
    | fill hf =>
      obtain ⟨h', hg, hp⟩ := (C59_returns hX ho _).2 g' hf
      exact ⟨h', .fill hg, hp⟩
    | reset hf =>
      obtain ⟨h', hg, hp⟩ := (C62_returns hX ho).2 g' hf
      exact ⟨h', .reset hg, hp⟩
    | marshal hm =>
      obtain ⟨v, hr, hw, -⟩ := id ho
      exact ⟨h, .marshal hr (((C61_marshalJSON hX hw).1 _).2 hm), .refl ho⟩
    | isZero hz =>
      obtain ⟨v, hr, hw, -⟩ := id ho
      exact ⟨h, .isZero hr ((C61_isZero hX hw _).2 hz), .refl ho⟩

theorem treeCall_unique {n : Nat} {g g1 g2 : GoVal} {q : Req} {r1 r2 : Reply} (h1 : TreeCall Γ n g q r1 g1) (h2 : TreeCall Γ n g q r2 g2) :
    r1 = r2 ∧ g1 = g2 := by
  cases h1 with
  | @unmarshal data _ _ e hf =>
    cases h2 with
    | unmarshal hf' =>
      obtain ⟨k, hf⟩ := hf
      obtain ⟨k', hf'⟩ := hf'
      simp only [unmarshalJSON] at hf hf'
      cases hd : parseBytes data with
      | none => rw [hd] at hf hf'; cases hf; cases hf'; exact ⟨rfl, rfl⟩
      | some v =>
        rw [hd] at hf hf'
        obtain ⟨rfl, rfl⟩ := fills_unique ⟨k, hf⟩ ⟨k', hf'⟩
        exact ⟨rfl, rfl⟩
  | fill hf => cases h2 with | fill hf' => obtain ⟨rfl, rfl⟩ := fills_unique hf hf'; exact ⟨rfl, rfl⟩
  | reset hf => cases h2 with | reset hf' => exact ⟨rfl, reset_unique hf hf'⟩
  | marshal hf => cases h2 with | marshal hf' => rw [marshals_unique hf hf']; exact ⟨rfl, rfl⟩
  | isZero hf => cases h2 with | isZero hf' => rw [isZero_unique hf hf']; exact ⟨rfl, rfl⟩

theorem treeRun_unique {n : Nat} {g g1 : GoVal} {cs1 : List (Req × Reply)} (h1 : TreeRun Γ n g cs1 g1) :
    ∀ {g2 : GoVal} {cs2 : List (Req × Reply)}, TreeRun Γ n g cs2 g2 → cs1.map (·.1) = cs2.map (·.1) → cs1 = cs2 ∧ g1 = g2 := by
  induction h1 with
  | done =>
    intro g2 cs2 h2 he
    cases h2 with
    | done => exact ⟨rfl, rfl⟩
    | call => cases he
  | call hc _ ih =>
    intro g2 cs2 h2 he
    cases h2 with
    | done => cases he
    | call hc' hr' =>
      simp only [List.map_cons, List.cons.injEq] at he
      obtain ⟨rfl, he⟩ := he
      obtain ⟨rfl, rfl⟩ := treeCall_unique hc hc'
      obtain ⟨rfl, rfl⟩ := ih hr' he
      exact ⟨rfl, rfl⟩

variable {ι : Type} [DecidableEq ι] {typ : ι → Nat} {var : ι → Spot}

/-- **C74** A program that calls methods on variables that share no memory, in any order: every
variable ends up with the value it would have if it were alone and only the calls on it were made,
and every call returns what it would return then.  The variables still share no memory. -/
theorem C74_alone (hX : ∀ n, MSim (Γ.ext n) (X n)) {h h' : Heap} {tree : ι → GoVal} {L : ι → List Loc} (ha : Apart h var tree L)
    {cs : List (ι × Req × Reply)} (hr : MemRun Γ X typ var h cs h') :
    ∃ tree', (∀ i, TreeRun Γ (typ i) (tree i) (callsOn i cs) (tree' i)) ∧ ∃ L', Apart h' var tree' L' := by
  induction hr generalizing tree L with
  | done => exact ⟨tree, fun i => .done, L, ha⟩
  | @call h h1 h' i q r cs hc _ ih =>
    obtain ⟨g, hg, hp⟩ := (memCall_iff hX (ha.owns i) q r).1 h1 hc
    obtain ⟨L', ha'⟩ := ha.step i hp
    obtain ⟨tree', ht, hL⟩ := ih ha'
    refine ⟨tree', fun j => ?_, hL⟩
    have hj := ht j
    by_cases hji : i = j
    · subst hji
      simp only [if_true] at hj
      simpa [callsOn] using TreeRun.call hg hj
    · have hji' : ¬ j = i := fun he => hji he.symm
      simp only [hji', if_false] at hj
      simpa [callsOn, hji] using hj

/-- **C74** Conversely, if the calls on each variable can be made while it is alone, then a program
can make all of them in one memory, in whatever way they are interleaved, with the same results. -/
theorem C74_together (hX : ∀ n, MSim (Γ.ext n) (X n)) {h : Heap} {tree tree' : ι → GoVal} {L : ι → List Loc} (ha : Apart h var tree L)
    {cs : List (ι × Req × Reply)} (ht : ∀ i, TreeRun Γ (typ i) (tree i) (callsOn i cs) (tree' i)) :
    ∃ h', MemRun Γ X typ var h cs h' ∧ ∃ L', Apart h' var tree' L' := by
  induction cs generalizing h tree L with
  | nil =>
    have : tree = tree' := by
      funext i
      have := ht i
      simp only [callsOn, List.filterMap_nil] at this
      generalize tree' i = g at this
      cases this; rfl
    subst this
    exact ⟨h, .done, L, ha⟩
  | cons c cs ih =>
    obtain ⟨i, q, r⟩ := c
    have hi := ht i
    simp only [callsOn, List.filterMap_cons, if_true] at hi
    cases hi with
    | @call _ g1 _ _ _ _ hg hrest =>
      obtain ⟨h1, hc, hp⟩ := (memCall_iff hX (ha.owns i) q r).2 _ hg
      obtain ⟨L', ha'⟩ := ha.step i hp
      obtain ⟨h', hr, hL⟩ := ih ha' (fun j => by
        by_cases hji : i = j
        · subst hji; simpa [callsOn] using hrest
        · have hji' : ¬ j = i := fun he => hji he.symm
          have := ht j
          simp only [callsOn, List.filterMap_cons, hji, if_false] at this
          simpa [callsOn, hji'] using this)
      exact ⟨h', .call hc hr, hL⟩

/-- **C74** So the order in which calls on different variables are made does not matter: two
programs that make, on every variable, the same calls in the same order get the same answers and
leave the same values. -/
theorem C74_interleavings (hX : ∀ n, MSim (Γ.ext n) (X n)) {h h1 h2 : Heap} {tree : ι → GoVal} {L : ι → List Loc} (ha : Apart h var tree L)
    {cs1 cs2 : List (ι × Req × Reply)} (hr1 : MemRun Γ X typ var h cs1 h1) (hr2 : MemRun Γ X typ var h cs2 h2)
    (he : ∀ i, (callsOn i cs1).map (·.1) = (callsOn i cs2).map (·.1)) :
    (∀ i, callsOn i cs1 = callsOn i cs2) ∧ ∃ tree' L1 L2, Apart h1 var tree' L1 ∧ Apart h2 var tree' L2 := by
  obtain ⟨t1, ht1, L1, ha1⟩ := C74_alone hX ha hr1
  obtain ⟨t2, ht2, L2, ha2⟩ := C74_alone hX ha hr2
  have key := fun i => treeRun_unique (ht1 i) (ht2 i) (he i)
  have : t1 = t2 := funext fun i => (key i).2
  subst this
  exact ⟨fun i => (key i).1, t1, L1, L2, ha1, ha2⟩

/-- **C74** If one way to interleave the calls comes to its end without a panic, every way does. -/
theorem C74_any_order (hX : ∀ n, MSim (Γ.ext n) (X n)) {h h1 : Heap} {tree : ι → GoVal} {L : ι → List Loc} (ha : Apart h var tree L)
    {cs1 cs2 : List (ι × Req × Reply)} (hr1 : MemRun Γ X typ var h cs1 h1) (he : ∀ i, callsOn i cs1 = callsOn i cs2) :
    ∃ h2, MemRun Γ X typ var h cs2 h2 := by
  obtain ⟨t1, ht1, -⟩ := C74_alone hX ha hr1
  obtain ⟨h2, hr2, -⟩ := C74_together hX ha (cs := cs2) (tree' := t1) (fun i => he i ▸ ht1 i)
  exact ⟨h2, hr2⟩

end

namespace Examples
open Sample

attribute [local instance] Sample.ext

/-- An array of two structs `{ L []int8 }`, whose slices have arrays of their own. -/
def pair : Heap := ⟨[.cells [.struct [.slice 1 0 1 2], .struct [.slice 2 0 0 1]], .cells [.int 7, .int 8], .cells [.int 9]]⟩

/-- the first or the second of them -/
def pairVar (b : Bool) : Spot := .cell 0 (if b then 1 else 0)

def pairTree : Bool → GoVal
  | false => .struct [.slice [.int 7] [.int 8]]
  | true => .struct [.slice [] [.int 9]]

theorem pair_apart : Apart pair pairVar pairTree fun b => if b then [2] else [1] where
  owns
    | false => by
      refine ⟨.struct [.slice 1 0 1 2], rfl, ?_, by decide, by decide⟩
      simp only [pairTree, Rep, RepL]
      refine ⟨_, rfl, _, _, [1], [], rfl, ⟨1, [], [.int 7], [.int 8], [], [], [], rfl, rfl, ?_, ?_, rfl⟩, ⟨rfl, rfl⟩, rfl⟩ <;>
        exact ⟨_, _, [], [], rfl, ⟨rfl, rfl⟩, ⟨rfl, rfl⟩, rfl⟩
    | true => by
      refine ⟨.struct [.slice 2 0 0 1], rfl, ?_, by decide, by decide⟩
      simp only [pairTree, Rep, RepL]
      refine ⟨_, rfl, _, _, [2], [], rfl, ⟨2, [], [], [.int 9], [], [], [], rfl, rfl, ⟨rfl, rfl⟩, ?_, rfl⟩, ⟨rfl, rfl⟩, rfl⟩
      exact ⟨_, _, [], [], rfl, ⟨rfl, rfl⟩, ⟨rfl, rfl⟩, rfl⟩
  beside
    | false, true, _ => .inr (.inl (by decide))
    | true, false, _ => .inr (.inl (by decide))
    | false, false, h => absurd rfl h
    | true, true, h => absurd rfl h
  outside := by intro i j; cases i <;> cases j <;> decide
  disjoint := by intro i j; cases i <;> cases j <;> decide

/-- Calls on both, mixed: both are decoded, the first one from text, with a second element that fits
its array; the second one needs a new array, is encoded and reset. -/
def pairCalls : List (Bool × Req × Reply) :=
  [(false, .unmarshal (str "{\"l\":[1,2]}"), .err none), (true, .fill (lDoc "3" "4"), .err none), (true, .marshal, .text (.ok (str "{\"l\":[3,4]}"))),
   (false, .isZero, .bool false), (true, .reset, .done), (false, .marshal, .text (.ok (str "{\"l\":[1,2]}"))), (true, .isZero, .bool false)]

/-- after the first call, the second, and `Reset` -/
def pair1 : Heap := ⟨[.cells [.struct [.slice 1 0 2 2], .struct [.slice 2 0 0 1]], .cells [.int 1, .int 2], .cells [.int 9]]⟩
def pair2 : Heap := ⟨[.cells [.struct [.slice 1 0 2 2], .struct [.slice 3 0 2 2]], .cells [.int 1, .int 2], .cells [.int 9], .cells [.int 3, .int 4]]⟩
def pair3 : Heap := ⟨[.cells [.struct [.slice 1 0 2 2], .struct [.slice 3 0 0 2]], .cells [.int 1, .int 2], .cells [.int 9], .cells [.int 0, .int 0]]⟩

set_option maxRecDepth 200000 in
theorem pair_run : MemRun mem noX (fun _ => 2) pairVar pair pairCalls pair3 := by
  have h1 : MemCall mem noX 2 (pairVar false) pair (.unmarshal (str "{\"l\":[1,2]}")) (.err none) pair1 := by
    have hp : parseBytes (str "{\"l\":[1,2]}") = some (lDoc "1" "2") := sameDoc_eq (by decide +kernel)
    refine .unmarshal (k := 5) ?_
    rw [hunmarshalJSON, hp]
    rfl
  have h2 : MemCall mem noX 2 (pairVar true) pair1 (.fill (lDoc "3" "4")) (.err none) pair2 := .fill ⟨5, rfl⟩
  have h3 : MemCall mem noX 2 (pairVar true) pair2 .marshal (.text (.ok (str "{\"l\":[3,4]}"))) pair2 :=
    .marshal (x := .struct [.slice 3 0 2 2]) rfl ⟨5, rfl⟩
  have h4 : MemCall mem noX 2 (pairVar false) pair2 .isZero (.bool false) pair2 := .isZero (x := .struct [.slice 1 0 2 2]) rfl ⟨5, rfl⟩
  have h5 : MemCall mem noX 2 (pairVar true) pair2 .reset .done pair3 := .reset ⟨5, rfl⟩
  have h6 : MemCall mem noX 2 (pairVar false) pair3 .marshal (.text (.ok (str "{\"l\":[1,2]}"))) pair3 :=
    .marshal (x := .struct [.slice 1 0 2 2]) rfl ⟨5, rfl⟩
  have h7 : MemCall mem noX 2 (pairVar true) pair3 .isZero (.bool false) pair3 := .isZero (x := .struct [.slice 3 0 0 2]) rfl ⟨5, rfl⟩
  exact .call h1 (.call h2 (.call h3 (.call h4 (.call h5 (.call h6 (.call h7 .done))))))

theorem C74_pair : ∃ h', MemRun mem noX (fun _ => 2) pairVar pair pairCalls h' ∧
    ∃ tree', (∀ b, TreeRun mem 2 (pairTree b) (callsOn b pairCalls) (tree' b)) ∧ ∃ L', Apart h' pairVar tree' L' :=
  ⟨pair3, pair_run, C74_alone noX_sim pair_apart pair_run⟩

/-- The same two structs after `b = a`: their slices have one array. -/
def joint : Heap := ⟨[.cells [.struct [.slice 1 0 1 2], .struct [.slice 1 0 1 2]], .cells [.int 7, .int 8]]⟩
/-- … after the first call, the second, and after these in the other order -/
def joint1 : Heap := ⟨[.cells [.struct [.slice 1 0 2 2], .struct [.slice 1 0 1 2]], .cells [.int 1, .int 2]]⟩
def joint12 : Heap := ⟨[.cells [.struct [.slice 1 0 2 2], .struct [.slice 1 0 2 2]], .cells [.int 3, .int 4]]⟩
def joint2 : Heap := ⟨[.cells [.struct [.slice 1 0 1 2], .struct [.slice 1 0 2 2]], .cells [.int 3, .int 4]]⟩
def joint21 : Heap := ⟨[.cells [.struct [.slice 1 0 2 2], .struct [.slice 1 0 2 2]], .cells [.int 1, .int 2]]⟩

set_option maxRecDepth 200000 in
/-- Without the condition that they share no memory the order matters: what the first one is encoded
to depends on which one was decoded last. -/
theorem C74_joint :
    (∃ h', MemRun mem noX (fun _ => 2) pairVar joint
      [(false, .fill (lDoc "1" "2"), .err none), (true, .fill (lDoc "3" "4"), .err none),
        (false, .marshal, .text (.ok (str "{\"l\":[3,4]}")))] h') ∧
    (∃ h', MemRun mem noX (fun _ => 2) pairVar joint
      [(true, .fill (lDoc "3" "4"), .err none), (false, .fill (lDoc "1" "2"), .err none),
        (false, .marshal, .text (.ok (str "{\"l\":[1,2]}")))] h') := by
  have a1 : MemCall mem noX 2 (pairVar false) joint (.fill (lDoc "1" "2")) (.err none) joint1 := .fill ⟨5, rfl⟩
  have a2 : MemCall mem noX 2 (pairVar true) joint1 (.fill (lDoc "3" "4")) (.err none) joint12 := .fill ⟨5, rfl⟩
  have a3 : MemCall mem noX 2 (pairVar false) joint12 .marshal (.text (.ok (str "{\"l\":[3,4]}"))) joint12 :=
    .marshal (x := .struct [.slice 1 0 2 2]) rfl ⟨5, rfl⟩
  have b1 : MemCall mem noX 2 (pairVar true) joint (.fill (lDoc "3" "4")) (.err none) joint2 := .fill ⟨5, rfl⟩
  have b2 : MemCall mem noX 2 (pairVar false) joint2 (.fill (lDoc "1" "2")) (.err none) joint21 := .fill ⟨5, rfl⟩
  have b3 : MemCall mem noX 2 (pairVar false) joint21 .marshal (.text (.ok (str "{\"l\":[1,2]}"))) joint21 :=
    .marshal (x := .struct [.slice 1 0 2 2]) rfl ⟨5, rfl⟩
  exact ⟨⟨_, .call a1 (.call a2 (.call a3 .done))⟩, ⟨_, .call b1 (.call b2 (.call b3 .done))⟩⟩

end Examples

end VJ
