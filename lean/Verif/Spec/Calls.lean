import Verif.Model.HeapText
import Verif.Spec.Api
import Verif.Spec.Heap
import Verif.Spec.TextApi

/-!
# Programs that call generated methods on many variables
-/

namespace VJ

/-- A call of a generated method. -/
inductive Req where
  | unmarshal (data : Str)
  | fill (doc : JV)
  | reset
  | marshal
  | isZero

/-- What a call returns. -/
inductive Reply where
  | err (e : Option Err)
  | done
  | text (r : Except EErr Str)
  | bool (b : Bool)

section
variable [Ext]

/-- The call `q` on a value `g` of type `n` that is all by itself returns `r` and leaves `g'`. -/
inductive TreeCall (Γ : Env) (n : Nat) : GoVal → Req → Reply → GoVal → Prop
  | unmarshal {data : Str} {g g' : GoVal} {e : Option Err} : Unmarshals Γ n data g e g' → TreeCall Γ n g (.unmarshal data) (.err e) g'
  | fill {v : JV} {g g' : GoVal} {e : Option Err} : Fills Γ n v g e g' → TreeCall Γ n g (.fill v) (.err e) g'
  | reset {g g' : GoVal} : ResetsTo Γ n g g' → TreeCall Γ n g .reset .done g'
  | marshal {g : GoVal} {r : Except EErr Str} : Marshals Γ n (some g) r → TreeCall Γ n g .marshal (.text r) g
  | isZero {g : GoVal} {b : Bool} : IsZeroIs Γ n g b → TreeCall Γ n g .isZero (.bool b) g

/-- The calls, one after the other, on a value that is all by itself. -/
inductive TreeRun (Γ : Env) (n : Nat) : GoVal → List (Req × Reply) → GoVal → Prop
  | done {g : GoVal} : TreeRun Γ n g [] g
  | call {g g1 g' : GoVal} {q : Req} {r : Reply} {cs : List (Req × Reply)} :
      TreeCall Γ n g q r g1 → TreeRun Γ n g1 cs g' → TreeRun Γ n g ((q, r) :: cs) g'

/-- The call `q` on the variable at `p`, of type `n`, in the memory `h` returns `r` and leaves `h'`. -/
inductive MemCall (Γ : Env) (X : Nat → HMethods) (n : Nat) (p : Spot) : Heap → Req → Reply → Heap → Prop
  | unmarshal {data : Str} {h h' : Heap} {e : Option Err} {k : Nat} :
      hunmarshalJSON (Γ.hmethods X k n) data p h = .ok (e, h') → MemCall Γ X n p h (.unmarshal data) (.err e) h'
  | fill {v : JV} {h h' : Heap} {e : Option Err} : MemFills Γ X n v p h e h' → MemCall Γ X n p h (.fill v) (.err e) h'
  | reset {h h' : Heap} : MemResets Γ X n p h h' → MemCall Γ X n p h .reset .done h'
  | marshal {h : Heap} {x : HVal} {r : Except EErr Str} : h.read p = some x → MemMarshalJSON Γ X n (some x) h (.ok r) →
      MemCall Γ X n p h .marshal (.text r) h
  | isZero {h : Heap} {x : HVal} {b : Bool} : h.read p = some x → MemIsZero Γ X n x h b → MemCall Γ X n p h .isZero (.bool b) h

/-- A program: calls on variables, one after the other, all in one memory.  The variable `i` lies at
`var i` and is of type `typ i`. -/
inductive MemRun {ι : Type} (Γ : Env) (X : Nat → HMethods) (typ : ι → Nat) (var : ι → Spot) : Heap → List (ι × Req × Reply) → Heap → Prop
  | done {h : Heap} : MemRun Γ X typ var h [] h
  | call {h h1 h' : Heap} {i : ι} {q : Req} {r : Reply} {cs : List (ι × Req × Reply)} :
      MemCall Γ X (typ i) (var i) h q r h1 → MemRun Γ X typ var h1 cs h' → MemRun Γ X typ var h ((i, q, r) :: cs) h'

end

/-- The calls on the variable `i` among those of a program, in their order. -/
def callsOn {ι : Type} [DecidableEq ι] (i : ι) (cs : List (ι × Req × Reply)) : List (Req × Reply) :=
  cs.filterMap fun c => if c.1 = i then some c.2 else none

/-- Two variables, or parts of variables (elements of one array, fields of one struct), neither of
which is part of the other. -/
def Beside (p q : Spot) : Prop :=
  p.loc ≠ q.loc ∨ p.idx ≠ q.idx ∨ (¬ p.path <+: q.path ∧ ¬ q.path <+: p.path)

/-- In the memory `h` every variable holds the tree given for it, and no two of them share memory. -/
structure Apart {ι : Type} (h : Heap) (var : ι → Spot) (tree : ι → GoVal) (L : ι → List Loc) : Prop where
  owns : ∀ i, Owns h (var i) (tree i) (L i)
  beside : ∀ i j, i ≠ j → Beside (var i) (var j)
  outside : ∀ i j, (var i).loc ∉ L j
  disjoint : ∀ i j, i ≠ j → ∀ l ∈ L i, l ∉ L j

end VJ
