import Verif.Props.Plain
import Verif.Props.Calls

/-!
# C76: copying through JSON
-/

namespace VJ
set_option linter.unusedSectionVars false

section
variable [Ext] {Γ : Env} {S : Nat → Prop} {F : Nat → Option GoVal → JV → Prop} {X : Nat → GoVal → Prop} {H : Nat → HMethods}

/-- **C76, any text.**  Whatever is decoded into a new variable, and whatever comes of it: all parts of the
value are in new memory, no two of them share any, and nothing but the variable has changed. -/
theorem C76_new_memory (hH : ∀ n, MSim (Γ.ext n) (H n)) {n : Nat} {s : Str} {h h' : Heap} {p : Spot} {z : GoVal} (ho : Owns h p z [])
    {e : Option Err} (hc : MemCall Γ H n p h (.unmarshal s) (.err e) h') :
    (∀ l, l < h.size → l ≠ p.loc → h'.objs[l]? = h.objs[l]?) ∧ ∃ u L', Unmarshals Γ n s z e u ∧ Owns h' p u L' ∧ ∀ l ∈ L', h.size ≤ l := by
  obtain ⟨g', hg, L', hO, hL, hU⟩ := (memCall_iff hH ho (.unmarshal s) (.err e)).1 h' hc
  cases hg with
  | unmarshal hg =>
    refine ⟨fun l hl hp => hU.other l hl (by simp) hp, g', L', hg, hO, fun l hl => ?_⟩
    rcases hL l hl with h1 | h1
    · cases h1
    · exact h1

/-- decoding a text into a variable that refers to nothing -/
theorem copy_into (hH : ∀ n, MSim (Γ.ext n) (H n)) {n : Nat} {s : Str} {h : Heap} {p : Spot} {z u : GoVal} (ho : Owns h p z [])
    (hu : ∀ e v', Unmarshals Γ n s z e v' ↔ e = none ∧ v' = u) :
    (∃ h', MemCall Γ H n p h (.unmarshal s) (.err none) h') ∧
    ∀ e h', MemCall Γ H n p h (.unmarshal s) (.err e) h' → e = none ∧
      (∀ l, l < h.size → l ≠ p.loc → h'.objs[l]? = h.objs[l]?) ∧ ∃ L', Owns h' p u L' ∧ ∀ l ∈ L', h.size ≤ l := by
  constructor
  · obtain ⟨h', hc, -⟩ := (memCall_iff hH ho (.unmarshal s) (.err none)).2 u (.unmarshal ((hu _ _).2 ⟨rfl, rfl⟩))
    exact ⟨h', hc⟩
  · intro e h' hc
    obtain ⟨h1, g', L', hg, hO, hL⟩ := C76_new_memory hH ho hc
    obtain ⟨rfl, rfl⟩ := (hu _ _).1 hg
    exact ⟨rfl, h1, L', hO, hL⟩

/-- **C76, values that survive** (C31).  A value, of which parts may be shared in whatever way,
is encoded, and the text is decoded into a new variable.  No error is reported, the variable holds the
same value, all of its parts are in new memory, no two of them share any, and nothing else has changed. -/
theorem C76_survivor (hH : ∀ n, MSim (Γ.ext n) (H n)) (hP : Package Γ X S) (hE : EncPackage Γ F S) (hR : TripPackage Γ X F S) {n : Nat} (hn : S n)
    {h : Heap} {v : GoVal} {x : HVal} {L : List Loc} (hx : Rep h v x L) (hv : HasType Γ X (.named n) v) (hf : Fine Γ F (.named n) v)
    (hl : Lossless Γ (.named n) v) {s : Str} (hm : MemMarshalJSON Γ H n (some x) h (.ok (.ok s))) (hdep : ∀ jv, Json jv s → DepthLe 300 jv)
    {p : Spot} {z : GoVal} (hz : ZeroIs Γ n z) (ho : Owns h p z []) :
    (∃ h', MemCall Γ H n p h (.unmarshal s) (.err none) h') ∧
    ∀ e h', MemCall Γ H n p h (.unmarshal s) (.err e) h' → e = none ∧
      (∀ l, l < h.size → l ≠ p.loc → h'.objs[l]? = h.objs[l]?) ∧ ∃ L', Owns h' p v.trim L' ∧ ∀ l ∈ L', h.size ≤ l :=
  copy_into hH ho fun _ _ => C31_round_trip_exact_partial hP hE hR hn hv hf hl (((C61_marshalJSON hH hx).1 _).1 hm) hdep hz

/-- **C76, plain types.**  Every value of a plain type can be copied through JSON: `MarshalJSON` gives a
text, and unless that is nested more than 300 deep, decoding it into a new variable gives the same value in
memory of its own. -/
theorem C76_copy (hH : ∀ n, MSim (Γ.ext n) (H n)) (hE : EncPackage Γ F S) (hP : PlainPackage Γ S) (hzero : Ext.parseFloat (str "0") = some 0)
    {n : Nat} (hn : S n) {h : Heap} {v : GoVal} {x : HVal} {L : List Loc} (hx : Rep h v x L) (hv : HasType Γ X (.named n) v)
    {p : Spot} {z : GoVal} (hz : ZeroIs Γ n z) (ho : Owns h p z []) :
    ∃ s jv, MemMarshalJSON Γ H n (some x) h (.ok (.ok s)) ∧ Json jv s ∧ (DepthLe 300 jv →
      (∃ h', MemCall Γ H n p h (.unmarshal s) (.err none) h') ∧
      ∀ e h', MemCall Γ H n p h (.unmarshal s) (.err e) h' → e = none ∧
        (∀ l, l < h.size → l ≠ p.loc → h'.objs[l]? = h.objs[l]?) ∧ ∃ L', Owns h' p v.trim L' ∧ ∀ l ∈ L', h.size ≤ l) := by
  obtain ⟨s, jv, h1, h2, h3⟩ := C49_every_value (X := X) hE hP hzero hn hv
  exact ⟨s, jv, ((C61_marshalJSON hH hx).1 _).2 h1, h2, fun hdep => copy_into hH ho (h3 hdep z hz)⟩

/-- what calls on a variable that lies in new memory leave as it was -/
theorem run_leaves (hH : ∀ n, MSim (Γ.ext n) (H n)) {n N : Nat} {p : Spot} {h h' : Heap} {cs : List (Unit × Req × Reply)}
    (hr : MemRun Γ H (fun _ => n) (fun _ => p) h cs h') {g : GoVal} {L : List Loc} (ho : Owns h p g L) (hL : ∀ l ∈ L, N ≤ l) (hN : N ≤ h.size) :
    ∀ l, l < N → l ≠ p.loc → h'.objs[l]? = h.objs[l]? := by
  induction hr generalizing g L with
  | done => exact fun _ _ _ => rfl
  | @call h h1 h' i q r cs hc _ ih =>
    obtain ⟨g', -, L', hO, hsub, hU⟩ := (memCall_iff hH ho q r).1 h1 hc
    have hL' : ∀ l ∈ L', N ≤ l := by
      intro l hl
      rcases hsub l hl with h1 | h1
      · exact hL l h1
      · exact Nat.le_trans hN h1
    intro l hl hp
    rw [ih hO hL' (Nat.le_trans hN hU.size) l hl hp]
    exact hU.other l (Nat.lt_of_lt_of_le hl hN) (fun hm => absurd (hL l hm) (Nat.not_le.mpr hl)) hp

/-- **C76, the copy is a copy.**  Whatever calls are then made on the copy, the original, with whatever is
shared between its parts, stays the value it was. -/
theorem C76_independent (hH : ∀ n, MSim (Γ.ext n) (H n)) {n m : Nat} {s : Str} {h h' h'' : Heap} {v z u : GoVal} {x : HVal} {L : List Loc}
    {p q : Spot} (hq : h.read q = some x) (hx : Rep h v x L) (hqp : q.loc ≠ p.loc) (hp : p.loc ∉ L) (ho : Owns h p z [])
    (hu : ∀ e v', Unmarshals Γ n s z e v' ↔ e = none ∧ v' = u) {e : Option Err} (hc : MemCall Γ H n p h (.unmarshal s) (.err e) h')
    {cs : List (Unit × Req × Reply)} (hr : MemRun Γ H (fun _ => m) (fun _ => p) h' cs h'') :
    h''.read q = some x ∧ Rep h'' v x L := by
  obtain ⟨-, h1, L', h2, h3⟩ := (copy_into hH ho hu).2 e h' hc
  have hs : h.size ≤ h'.size := by
    obtain ⟨_, -, _, -, -, hU⟩ := (memCall_iff hH ho (.unmarshal s) (.err e)).1 h' hc
    exact hU.size
  have key : ∀ l, l < h.size → l ≠ p.loc → h''.objs[l]? = h.objs[l]? := fun l hl hlp => by
    rw [run_leaves hH hr h2 h3 hs l hl hlp, h1 l hl hlp]
  refine ⟨?_, hx.frame fun l hl => key l (hx.lt l hl) fun he => hp (he ▸ hl)⟩
  have hkey := key q.loc (read_lt hq) hqp
  simp only [Heap.read] at hq ⊢
  rw [hkey]
  exact hq

end

/-! ### the hypotheses can be met -/

namespace Examples
open Sample

attribute [local instance] Sample.ext

/-- `type Dict map[string]*Base`: the variable at 2 has a map with two keys that point to one struct; the one at 3 is new -/
def dictHeap : Heap := ⟨[.cells [.struct [.int 4]], .map [(str "a", .ptr 0), (str "b", .ptr 0)], .cells [.map 1], .cells [.nil]]⟩
def dictTree : GoVal := .map [(str "a", .ptr (.struct [.int 4])), (str "b", .ptr (.struct [.int 4]))]

theorem dict_rep : Rep dictHeap dictTree (.map 1) [1, 0, 0] := by
  have hb : Rep dictHeap (.ptr (.struct [.int 4])) (.ptr 0) [0] :=
    ⟨0, .struct [.int 4], [], rfl, rfl, ⟨[.int 4], rfl, .int 4, [], [], [], rfl, ⟨rfl, rfl⟩, ⟨rfl, rfl⟩, rfl⟩, rfl⟩
  exact ⟨1, _, [0, 0], rfl, rfl, ⟨.ptr 0, _, [0], [0], rfl, hb, ⟨.ptr 0, _, [0], [], rfl, hb, ⟨rfl, rfl⟩, rfl⟩, rfl⟩, rfl⟩

theorem dict_typed : HasType Γ NoForeign (.named 26) dictTree := by
  refine .alias (.named 26) rfl (.map (by decide) ?_)
  simp only [List.mem_cons, List.not_mem_nil, or_false]
  rintro k (rfl | rfl)
  · exact .ptr (base_typed (by decide))
  · exact .ptr (base_typed (by decide))

theorem dict_new : ZeroIs Γ 26 .nil ∧ Owns dictHeap (.cell 3 0) .nil [] := ⟨⟨5, rfl⟩, .nil, rfl, ⟨rfl, rfl⟩, by simp, by simp⟩

theorem sampleX_sim (n : Nat) : MSim (Γ.ext n) (noX n) := noX_sim n

def dictText : Str := str "{\"a\":{\"rev\":4},\"b\":{\"rev\":4}}"

set_option maxRecDepth 200000 in
theorem dict_marshals : Marshals Γ 26 (some dictTree) (.ok dictText) := ⟨5, rfl⟩

/-- what decoding the text makes of a new variable -/
theorem dict_back (e : Option Err) (v' : GoVal) : Unmarshals Γ 26 dictText .nil e v' ↔ e = none ∧ v' = dictTree := by
  obtain ⟨s, jv, h1, h2, h3⟩ := C49_every_value (X := NoForeign) plain_encPackage plainTypes_ok rfl (n := 26) (by decide) dict_typed
  have hs := marshals_unique h1 dict_marshals
  cases hs
  exact h3 ((json_depth h2).mono (by decide +kernel)) .nil dict_new.1 e v'

/-- C76 at work: the copy has a struct for each key, and whatever is then done with the copy, the original has what it had -/
theorem C76_dict : MemMarshalJSON Γ noX 26 (some (.map 1)) dictHeap (.ok (.ok dictText)) ∧
    ∃ h', MemCall Γ noX 26 (.cell 3 0) dictHeap (.unmarshal dictText) (.err none) h' ∧ (∃ L', Owns h' (.cell 3 0) dictTree L' ∧ ∀ l ∈ L', 4 ≤ l) ∧
      ∀ cs h'', MemRun Γ noX (fun _ : Unit => 26) (fun _ => .cell 3 0) h' cs h'' → h''.read (.cell 2 0) = some (.map 1) ∧ Rep h'' dictTree (.map 1) [1, 0, 0] := by
  obtain ⟨⟨h', hc⟩, ha⟩ := copy_into (H := noX) sampleX_sim dict_new.2 dict_back
  obtain ⟨-, -, L', hO, hL⟩ := ha _ _ hc
  refine ⟨((C61_marshalJSON sampleX_sim dict_rep).1 _).2 dict_marshals, h', hc, ⟨L', hO, hL⟩, fun cs h'' hr => ?_⟩
  exact C76_independent sampleX_sim rfl dict_rep (by decide) (by decide) dict_new.2 dict_back hc hr

end Examples
end VJ
