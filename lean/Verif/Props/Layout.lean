import Verif.Proof.Layout
import Verif.Props.Text
import Verif.Props.Determinism
import Verif.Props.Cut
import Verif.Props.RoundTripSamples

/-!
# C77: white space, spelling and the order of members, at any depth
-/

namespace VJ
set_option linter.unusedSectionVars false

section
variable [Ext] {Γ : Env}

/-- **C77, spelling**: two texts of the same document, however they are spaced and however their characters are escaped, have the same
effect: the same error, or none, and the same contents of the receiver. -/
theorem C77_spelling {n : Nat} {doc : JV} {data data' : Str} (h : LooseDocument doc data) (h' : LooseDocument doc data') (old : GoVal)
    (e : Option Err) (new : GoVal) : Unmarshals Γ n data old e new ↔ Unmarshals Γ n data' old e new := by
  rw [unmarshals_loose h, unmarshals_loose h']

/-- **C77, documents, partial** (no slices of maps): a document in which no key is repeated and that is accepted is accepted with the
members of its objects in any other order, at any depth, and the receiver ends up with the same contents. -/
theorem C77_document_partial (hΓ : NoSlicesOfMaps Γ) (hX : LayoutBlind Γ) {n : Nat} {doc doc' : JV} {old new : GoVal} (hn : NoRepeats doc)
    (hd : SameDoc doc doc') (h : Fills Γ n doc old none new) : ∃ new', Fills Γ n doc' old none new' ∧ SameValue new new' := by
  obtain ⟨k, h⟩ := h
  obtain ⟨w, h1, h2⟩ := (methods_layout hΓ hX k).fill n doc doc' old new hn hd h
  exact ⟨w, ⟨k, h1⟩, h2⟩

/-- **C77, texts, partial** … and so for texts: white space, escapes and the order of members can all differ. -/
theorem C77_text_partial (hΓ : NoSlicesOfMaps Γ) (hX : LayoutBlind Γ) {n : Nat} {doc doc' : JV} {data data' : Str} {old new : GoVal}
    (ht : LooseDocument doc data) (ht' : LooseDocument doc' data') (hn : NoRepeats doc) (hd : SameDoc doc doc')
    (h : Unmarshals Γ n data old none new) : ∃ new', Unmarshals Γ n data' old none new' ∧ SameValue new new' := by
  obtain ⟨w, h1, h2⟩ := C77_document_partial hΓ hX hn hd ((unmarshals_loose ht).1 h)
  exact ⟨w, (unmarshals_loose ht').2 h1, h2⟩

/-- **C77, errors, partial**: it cannot be that one of two such texts is accepted and the other rejected. -/
theorem C77_verdict_partial (hΓ : NoSlicesOfMaps Γ) (hX : LayoutBlind Γ) {n : Nat} {doc doc' : JV} {data data' : Str} {old new new' : GoVal} {e : Err}
    (ht : LooseDocument doc data) (ht' : LooseDocument doc' data') (hn : NoRepeats doc) (hd : SameDoc doc doc')
    (h : Unmarshals Γ n data old none new) : ¬ Unmarshals Γ n data' old (some e) new' := by
  intro h'
  obtain ⟨w, h1, _⟩ := C77_text_partial hΓ hX ht ht' hn hd h
  have := fills_unique ((unmarshals_loose ht').1 h1) ((unmarshals_loose ht').1 h')
  cases this.1

end

/-! ### the hypotheses can be met, and are needed -/

namespace Examples
open Sample
attribute [local instance] Sample.ext

/-- `type Item struct { A int8 json:"a"; T map[string]int8 json:"t" }` and
`type Box struct { M map[string]Item json:"m"; L []Item json:"l" }` -/
def boxEnv : Env where
  decl
    | 0 => some (.struct false [⟨.map (.named 1), { jsonName := ['m'] }⟩, ⟨.slice (.named 1), { jsonName := ['l'] }⟩])
    | 1 => some (.struct true [⟨.prim .int8, { jsonName := ['a'] }⟩, ⟨.map (.prim .int8), { jsonName := ['t'] }⟩])
    | _ => none
  ext _ := .unsupp

theorem boxEnv_quiet : NoSlicesOfMaps boxEnv where
  fields n strict fds fd hd hf := by
    match n, hd with
    | 0, hd =>
      cases hd
      simp at hf
      rcases hf with rfl | rfl
      · trivial
      · refine ⟨?_, trivial⟩
        rintro ⟨val, h⟩
        cases h with | named h => cases h
    | 1, hd => cases hd; simp at hf; rcases hf with rfl | rfl <;> trivial
    | n + 2, hd => cases hd
  decls n t hd := by
    match n, hd with
    | 0, hd => cases hd
    | 1, hd => cases hd
    | n + 2, hd => cases hd

theorem boxEnv_blind : LayoutBlind boxEnv where
  conv n v v' w _ _ h := by cases h
  fill n doc doc' old new _ _ _ h := by cases h

/-- {"t":{"x":1,"y":2},"a":3} -/
def item1 : JV := .obj [(['t'], .obj [(['x'], .num ['1']), (['y'], .num ['2'])]), (['a'], .num ['3'])]
/-- {"a":3,"t":{"y":2,"x":1}} -/
def item2 : JV := .obj [(['a'], .num ['3']), (['t'], .obj [(['y'], .num ['2']), (['x'], .num ['1'])])]

/-- {"m":{"p":item,"q":{}},"l":[{},item]} -/
def box1 : JV := .obj [(['m'], .obj [(['p'], item1), (['q'], .obj [])]), (['l'], .arr [.obj [], item1])]
def box2 : JV := .obj [(['l'], .arr [.obj [], item2]), (['m'], .obj [(['q'], .obj []), (['p'], item2)])]

theorem item_same : SameDoc item1 item2 :=
  .members (mid := [(['t'], .obj [(['y'], .num ['2']), (['x'], .num ['1'])]), (['a'], .num ['3'])])
    ((Each2.nil.cons ⟨rfl, .refl _⟩).cons ⟨rfl, .members (pw_refl (fun _ => ⟨rfl, .refl _⟩) _) (.swap _ _ _)⟩) (.swap _ _ _)

theorem box_same : SameDoc box1 box2 :=
  .members (mid := [(['m'], .obj [(['q'], .obj []), (['p'], item2)]), (['l'], .arr [.obj [], item2])])
    ((Each2.nil.cons ⟨rfl, .list ((Each2.nil.cons item_same).cons (.refl _))⟩).cons
      ⟨rfl, .members (mid := [(['p'], item2), (['q'], .obj [])]) ((Each2.nil.cons ⟨rfl, .refl _⟩).cons ⟨rfl, item_same⟩) (.swap _ _ _)⟩)
    (.swap _ _ _)

theorem item_once : NoRepeats item1 := by
  refine .obj (by decide) fun kv h => ?_
  simp at h
  rcases h with rfl | rfl
  · refine .obj (by decide) fun kv h => ?_
    simp at h
    rcases h with rfl | rfl <;> exact .num _
  · exact .num _

theorem box_once : NoRepeats box1 := by
  refine .obj (by decide) fun kv h => ?_
  simp at h
  rcases h with rfl | rfl
  · refine .obj (by decide) fun kv h => ?_
    simp at h
    rcases h with rfl | rfl
    · exact item_once
    · exact .obj (by decide) (by simp)
  · refine .arr fun v h => ?_
    simp at h
    rcases h with rfl | rfl
    · exact .obj (by decide) (by simp)
    · exact item_once

def boxItem : GoVal := .struct [.int 3, .map [(['x'], .int 1), (['y'], .int 2)]]

set_option maxRecDepth 200000 in
/-- hypotheses of `C77_document_partial`, for a document with objects in objects, in maps and in slices, and a receiver that holds a value -/
theorem C77_box : Fills boxEnv 0 box1 (.struct [.map [(['z'], .struct [.int 7, .nil])], .nil]) none
      (.struct [.map [(['z'], .struct [.int 7, .nil]), (['p'], boxItem), (['q'], .struct [.int 0, .nil])],
        .slice [.struct [.int 0, .nil], boxItem] []]) ∧
    ∃ new, Fills boxEnv 0 box2 (.struct [.map [(['z'], .struct [.int 7, .nil])], .nil]) none new ∧
      SameValue (.struct [.map [(['z'], .struct [.int 7, .nil]), (['p'], boxItem), (['q'], .struct [.int 0, .nil])],
        .slice [.struct [.int 0, .nil], boxItem] []]) new := by
  have h : Fills boxEnv 0 box1 (.struct [.map [(['z'], .struct [.int 7, .nil])], .nil]) none
      (.struct [.map [(['z'], .struct [.int 7, .nil]), (['p'], boxItem), (['q'], .struct [.int 0, .nil])],
        .slice [.struct [.int 0, .nil], boxItem] []]) := ⟨6, rfl⟩
  exact ⟨h, C77_document_partial boxEnv_quiet boxEnv_blind box_once box_same h⟩

set_option maxRecDepth 200000 in
/-- hypotheses of `C77_text_partial` and of `C77_spelling`: two texts of one document, and one of the other -/
theorem box_texts :
    LooseDocument box1 (str "{\"m\":{\"p\":{\"t\":{\"x\":1,\"y\":2},\"a\":3},\"q\":{}},\"l\":[{},{\"t\":{\"x\":1,\"y\":2},\"a\":3}]}") ∧
    LooseDocument box2 (str "{\"l\":[{},{\"a\":3,\"t\":{\"y\":2,\"x\":1}}],\"m\":{\"q\":{},\"p\":{\"a\":3,\"t\":{\"y\":2,\"x\":1}}}}") ∧
    LooseDocument box2 (str " {\"l\" :[{}, {\"\\u0061\":3,\"t\":{\"y\":2,\"x\":1}}],\"m\":{\"q\":{},\"p\":{\"a\":3,\"t\":{\"y\":2,\"x\":1}}}}\n") :=
  ⟨parseBytes_iff.1 (sameDoc_eq (by decide +kernel)), parseBytes_iff.1 (sameDoc_eq (by decide +kernel)),
    parseBytes_iff.1 (sameDoc_eq (by decide +kernel))⟩

set_option maxRecDepth 200000 in
/-- **In slices of maps the order of members matters.**  Both documents are accepted although an element is not a number; what was
read before it stays: {"l":[{"a":1,"b":"x"}]} and {"l":[{"b":"x","a":1}]}, decoded over a slice that holds an empty map, leave
different values. -/
theorem C77_slices_of_maps :
    Fills mapsEnv 0 (.obj [(str "l", .arr [.obj [(str "a", .num (str "1")), (str "b", .str (str "x"))]])]) (.struct [.slice [.map []] []]) none
      (.struct [.slice [.map [(str "a", .int 1)]] []]) ∧
    Fills mapsEnv 0 (.obj [(str "l", .arr [.obj [(str "b", .str (str "x")), (str "a", .num (str "1"))]])]) (.struct [.slice [.map []] []]) none
      (.struct [.slice [.map []] []]) ∧
    ¬ SameValue (.struct [.slice [.map [(str "a", .int 1)]] []]) (.struct [.slice [.map []] []]) := by
  refine ⟨⟨5, rfl⟩, ⟨5, rfl⟩, fun h => ?_⟩
  cases h with
  | struct _ h =>
    have h1 := h 0 _ _ rfl rfl
    cases h1 with
    | slice _ h _ _ =>
      have h2 := h 0 _ _ rfl rfl
      cases h2 with
      | map hk _ =>
        have := hk (str "a")
        revert this
        decide

set_option maxRecDepth 200000 in
/-- **With repeated keys the order matters** (the last one counts in a map): {"m":{"p":{"a":1},"p":{"a":2}}} -/
theorem C77_repeated_keys :
    Fills boxEnv 0 (.obj [(['m'], .obj [(['p'], .obj [(['a'], .num ['1'])]), (['p'], .obj [(['a'], .num ['2'])])])]) (.struct [.nil, .nil]) none
      (.struct [.map [(['p'], .struct [.int 2, .nil])], .nil]) ∧
    Fills boxEnv 0 (.obj [(['m'], .obj [(['p'], .obj [(['a'], .num ['2'])]), (['p'], .obj [(['a'], .num ['1'])])])]) (.struct [.nil, .nil]) none
      (.struct [.map [(['p'], .struct [.int 1, .nil])], .nil]) :=
  ⟨⟨6, rfl⟩, ⟨6, rfl⟩⟩

end Examples
end VJ
