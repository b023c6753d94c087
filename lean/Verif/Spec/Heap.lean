import Verif.Model.HeapMethods

/-!
# What it means that memory holds a value
-/

namespace VJ

mutual
/-- In the memory `h`, the value `v` stands for the tree `g`, and `L` lists the objects `v`
refers to, directly or through others: once for every reference. -/
def Rep (h : Heap) : GoVal → HVal → List Loc → Prop
  | .int i, v, L => v = .int i ∧ L = []
  | .float f, v, L => v = .float f ∧ L = []
  | .bool b, v, L => v = .bool b ∧ L = []
  | .str s, v, L => v = .str s ∧ L = []
  | .time t, v, L => v = .time t ∧ L = []
  | .uuid b, v, L => v = .uuid b ∧ L = []
  | .barr b, v, L => v = .barr b ∧ L = []
  | .nil, v, L => v = .nil ∧ L = []
  | .arr es, v, L => ∃ vs, v = .arr vs ∧ RepL h es vs L
  | .struct gs, v, L => ∃ vs, v = .struct vs ∧ RepL h gs vs L
  | .ptr g, v, L => ∃ l w M, v = .ptr l ∧ h.objs[l]? = some (.cells [w]) ∧ Rep h g w M ∧ L = l :: M
  | .slice es sp, v, L => ∃ l before vs ws after M N,
      v = .slice l before.length es.length (es.length + sp.length) ∧
      h.objs[l]? = some (.cells (before ++ (vs ++ ws) ++ after)) ∧
      RepL h es vs M ∧ RepL h sp ws N ∧ L = l :: (M ++ N)
  | .bytes b, v, L => ∃ l before ws after,
      v = .bytes l before.length b.length (b.length + ws.length) ∧
      h.objs[l]? = some (.cells (before ++ (byteCells b ++ ws) ++ after)) ∧ L = [l]
  | .map kvs, v, L => ∃ l ws M, v = .map l ∧ h.objs[l]? = some (.map ws) ∧ RepKV h kvs ws M ∧ L = l :: M
def RepL (h : Heap) : List GoVal → List HVal → List Loc → Prop
  | [], vs, L => vs = [] ∧ L = []
  | g :: gs, vs, L => ∃ v vs' M N, vs = v :: vs' ∧ Rep h g v M ∧ RepL h gs vs' N ∧ L = M ++ N
def RepKV (h : Heap) : List (Str × GoVal) → List (Str × HVal) → List Loc → Prop
  | [], vs, L => vs = [] ∧ L = []
  | (k, g) :: gs, vs, L => ∃ v vs' M N, vs = (k, v) :: vs' ∧ Rep h g v M ∧ RepKV h gs vs' N ∧ L = M ++ N
end

/-- The variable (or part of one) `p` holds the tree `g`, its parts are kept in the objects
`L`, no two parts of it share memory, and none of them refers back to the variable. -/
def Owns (h : Heap) (p : Spot) (g : GoVal) (L : List Loc) : Prop :=
  ∃ v, h.read p = some v ∧ Rep h g v L ∧ L.Nodup ∧ p.loc ∉ L

/-- Only `p`, the objects `L` and new objects differ between two memories. -/
structure Upd (h h' : Heap) (p : Spot) (L : List Loc) : Prop where
  size : h.size ≤ h'.size
  other : ∀ l, l < h.size → l ∉ L → l ≠ p.loc → h'.objs[l]? = h.objs[l]?
  root : ∃ w, h'.objs[p.loc]? = (h.write p w).objs[p.loc]?

/-- After a call: `p` holds the tree `g`, again without sharing, in objects that it used before
or that are new, and nothing else has changed. -/
def Post (h : Heap) (p : Spot) (L : List Loc) (g : GoVal) (h' : Heap) : Prop :=
  ∃ L', Owns h' p g L' ∧ (∀ l ∈ L', l ∈ L ∨ h.size ≤ l) ∧ Upd h h' p L

/-- A piece of memory: a cell of a variable or array, or a map. -/
inductive MemPart where
  | cell (l : Loc) (i : Nat)
  | map (l : Loc)

/-- The pieces of memory that are reached from a value through the fields of structs, the
elements of arrays, the cells of slices (up to their capacity) and maps.  What is in a map is
not followed, and neither are pointers.  Bytes are left out: decoding never writes into them. -/
inductive Refers (h : Heap) : HVal → MemPart → Prop
  | slice {l off len cap i : Nat} : off ≤ i → i < off + cap → Refers h (.slice l off len cap) (.cell l i)
  | elem {l off len cap i : Nat} {vs : List HVal} {w : HVal} {x : MemPart} : off ≤ i → i < off + cap →
      h.objs[l]? = some (.cells vs) → vs[i]? = some w → Refers h w x → Refers h (.slice l off len cap) x
  | map {l : Loc} : Refers h (.map l) (.map l)
  | field {fs : List HVal} {w : HVal} {x : MemPart} : w ∈ fs → Refers h w x → Refers h (.struct fs) x
  | item {es : List HVal} {w : HVal} {x : MemPart} : w ∈ es → Refers h w x → Refers h (.arr es) x

/-- Every object of the first memory is still there in the second, the cells outside `S` hold
what they held, and the maps outside `S` have the entries they had. -/
structure MemKept (S : MemPart → Prop) (h h' : Heap) : Prop where
  size : h.size ≤ h'.size
  cells : ∀ l vs, h.objs[l]? = some (.cells vs) →
    ∃ vs', h'.objs[l]? = some (.cells vs') ∧ vs'.length = vs.length ∧ ∀ i, ¬ S (.cell l i) → vs'[i]? = vs[i]?
  maps : ∀ l kvs, h.objs[l]? = some (.map kvs) →
    ∃ kvs', h'.objs[l]? = some (.map kvs') ∧ (¬ S (.map l) → kvs' = kvs)

/-- The same outcome, with related results. -/
def OutRel {α β : Type} (R : α → β → Prop) : Out α → Out β → Prop
  | .ok a, .ok b => R a b
  | .panic, .panic => True
  | .loop, .loop => True
  | .unsupp, .unsupp => True
  | _, _ => False

/-- Methods in memory do what methods on trees do. -/
structure MSim (m : Methods) (hm : HMethods) : Prop where
  zero : OutRel (fun g v => ∀ h, Rep h g v []) m.zero hm.zero
  conv : ∀ {h g v L}, Rep h g v L → OutRel (fun g' v' => Rep h g' v' L) (m.conv g) (hm.conv v)
  fill : ∀ {h p g L} (v : JV), Owns h p g L →
    OutRel (fun a b => a.1 = b.1 ∧ Post h p L a.2 b.2) (m.fill v g) (hm.fill v p h)
  marshal : ∀ {h g v L}, Rep h g v L → ∀ w, hm.marshalTo (some v) h w = m.marshalTo (some g) w
  marshalNil : ∀ h w, hm.marshalTo none h w = m.marshalTo none w
  isZero : ∀ {h g v L}, Rep h g v L → hm.isZero v h = m.isZero g
  reset : ∀ {h p g L}, Owns h p g L → OutRel (Post h p L) (m.reset g) (hm.reset p h)

/-- Whatever the outcome is, if it is a result it satisfies `P`. -/
def OutAll {α : Type} (P : α → Prop) (o : Out α) : Prop := ∀ a, o = .ok a → P a

mutual
/-- The slices and maps of a value lie in `S`. -/
def RefsIn (S : MemPart → Prop) : HVal → Prop
  | .slice l off _ cap => ∀ i, off ≤ i → i < off + cap → S (.cell l i)
  | .map l => S (.map l)
  | .struct fs => RefsInL S fs
  | .arr es => RefsInL S es
  | _ => True
def RefsInL (S : MemPart → Prop) : List HVal → Prop
  | [] => True
  | v :: vs => RefsIn S v ∧ RefsInL S vs
end

/-- What the cells of `S` refer to is in `S` again, and so are all objects that are not yet
there. -/
structure MemClosed (S : MemPart → Prop) (h : Heap) : Prop where
  cells : ∀ l i vs v, h.objs[l]? = some (.cells vs) → vs[i]? = some v → S (.cell l i) → RefsIn S v
  fresh : ∀ l, h.size ≤ l → (∀ i, S (.cell l i)) ∧ S (.map l)

/-- One step of the program that changes `S` only. -/
def MemStep (S : MemPart → Prop) (h h' : Heap) : Prop := MemKept S h h' ∧ MemClosed S h'

/-- What the methods of a type may do in memory. -/
structure MKeep (S : MemPart → Prop) (m : HMethods) : Prop where
  zero : OutAll (RefsIn S) m.zero
  conv : ∀ v, RefsIn S v → OutAll (RefsIn S) (m.conv v)
  fill : ∀ v p h, MemClosed S h → S (.cell p.loc p.idx) → OutAll (fun r => MemStep S h r.2) (m.fill v p h)

/-- The pieces of memory a call on the receiver at `p` may change: its cell, what is reached from
what is in it, and new objects. -/
def Touches (h : Heap) (p : Spot) (x : MemPart) : Prop :=
  x = .cell p.loc p.idx ∨ (∃ v, h.read (.cell p.loc p.idx) = some v ∧ Refers h v x) ∨
    ∃ l, h.size ≤ l ∧ (x = .map l ∨ ∃ i, x = .cell l i)

/-- `x.FillFromJSON(v)`, with `x` at `p` in the memory `h`, returns `e` and leaves the memory `h'`;
`X` gives the methods of types of other packages. -/
def MemFills [Ext] (Γ : Env) (X : Nat → HMethods) (n : Nat) (v : JV) (p : Spot) (h : Heap) (e : Option Err) (h' : Heap) : Prop :=
  ∃ k, (Γ.hmethods X k n).fill v p h = .ok (e, h')

/-- The call panics. -/
def MemPanics [Ext] (Γ : Env) (X : Nat → HMethods) (n : Nat) (v : JV) (p : Spot) (h : Heap) : Prop :=
  ∃ k, (Γ.hmethods X k n).fill v p h = .panic

/-- `x.MarshalTo(w)`, with the contents of `x` as given (`none` for a nil receiver), returns `e`
and leaves the writer `w'`. -/
def MemMarshals [Ext] (Γ : Env) (X : Nat → HMethods) (n : Nat) (x : Option HVal) (h : Heap) (w : W) (e : Option EErr) (w' : W) : Prop :=
  ∃ k, (Γ.hmethods X k n).marshalTo x h w = .ok (e, w')

/-- `x.MarshalJSON()` ends with outcome `r`. -/
def MemMarshalJSON [Ext] (Γ : Env) (X : Nat → HMethods) (n : Nat) (x : Option HVal) (h : Heap) (r : Out (Except EErr Str)) : Prop :=
  ∃ k, hmarshalJSON (Γ.hmethods X k n) x h = r

/-- `x.IsZero()` returns `b`. -/
def MemIsZero [Ext] (Γ : Env) (X : Nat → HMethods) (n : Nat) (x : HVal) (h : Heap) (b : Bool) : Prop :=
  ∃ k, (Γ.hmethods X k n).isZero x h = .ok b

/-- `x.Reset()`, with `x` at `p`, leaves the memory `h'`. -/
def MemResets [Ext] (Γ : Env) (X : Nat → HMethods) (n : Nat) (p : Spot) (h h' : Heap) : Prop :=
  ∃ k, (Γ.hmethods X k n).reset p h = .ok h'

/-- The pieces of memory that are reached from a value through the fields of structs, the
elements of arrays, the cells of slices up to their length, bytes included, maps and what is in
maps.  Pointers are not followed.  (`inByte` is there for memories whose byte cells hold something
other than numbers; from a number nothing is reached.) -/
inductive ClearReach (h : Heap) : HVal → MemPart → Prop
  | slice {l off len cap i : Nat} : off ≤ i → i < off + len → ClearReach h (.slice l off len cap) (.cell l i)
  | elem {l off len cap i : Nat} {vs : List HVal} {w : HVal} {x : MemPart} : off ≤ i → i < off + len →
      h.objs[l]? = some (.cells vs) → vs[i]? = some w → ClearReach h w x → ClearReach h (.slice l off len cap) x
  | byte {l off len cap i : Nat} : off ≤ i → i < off + len → ClearReach h (.bytes l off len cap) (.cell l i)
  | inByte {l off len cap i : Nat} {vs : List HVal} {w : HVal} {x : MemPart} : off ≤ i → i < off + len →
      h.objs[l]? = some (.cells vs) → vs[i]? = some w → ClearReach h w x → ClearReach h (.bytes l off len cap) x
  | map {l : Loc} : ClearReach h (.map l) (.map l)
  | entry {l : Loc} {kvs : List (Str × HVal)} {k : Str} {w : HVal} {x : MemPart} :
      h.objs[l]? = some (.map kvs) → (k, w) ∈ kvs → ClearReach h w x → ClearReach h (.map l) x
  | field {fs : List HVal} {w : HVal} {x : MemPart} : w ∈ fs → ClearReach h w x → ClearReach h (.struct fs) x
  | item {es : List HVal} {w : HVal} {x : MemPart} : w ∈ es → ClearReach h w x → ClearReach h (.arr es) x

/-- The pieces of memory `Reset` of the receiver at `p` may change. -/
def ClearTouches (h : Heap) (p : Spot) (x : MemPart) : Prop :=
  x = .cell p.loc p.idx ∨ (∃ v, h.read (.cell p.loc p.idx) = some v ∧ ClearReach h v x) ∨
    ∃ l, h.size ≤ l ∧ (x = .map l ∨ ∃ i, x = .cell l i)

mutual
/-- The slices, bytes and maps of a value lie in `S`. -/
def ClearsIn (S : MemPart → Prop) : HVal → Prop
  | .slice l off len _ => ∀ i, off ≤ i → i < off + len → S (.cell l i)
  | .bytes l off len _ => ∀ i, off ≤ i → i < off + len → S (.cell l i)
  | .map l => S (.map l)
  | .struct fs => ClearsInL S fs
  | .arr es => ClearsInL S es
  | _ => True
def ClearsInL (S : MemPart → Prop) : List HVal → Prop
  | [] => True
  | v :: vs => ClearsIn S v ∧ ClearsInL S vs
end

/-- What the cells and maps of `S` refer to is in `S` again, and so are all objects that are not
yet there. -/
structure ClearClosed (S : MemPart → Prop) (h : Heap) : Prop where
  cells : ∀ l i vs v, h.objs[l]? = some (.cells vs) → vs[i]? = some v → S (.cell l i) → ClearsIn S v
  maps : ∀ l kvs k v, h.objs[l]? = some (.map kvs) → (k, v) ∈ kvs → S (.map l) → ClearsIn S v
  fresh : ∀ l, h.size ≤ l → (∀ i, S (.cell l i)) ∧ S (.map l)

/-- One step of `Reset` that changes `S` only. -/
def ClearStep (S : MemPart → Prop) (h h' : Heap) : Prop := MemKept S h h' ∧ ClearClosed S h'

/-- What `Reset` of a type may do in memory. -/
structure MClear (S : MemPart → Prop) (m : HMethods) : Prop where
  zero : OutAll (ClearsIn S) m.zero
  reset : ∀ p h, ClearClosed S h → S (.cell p.loc p.idx) → OutAll (ClearStep S h) (m.reset p h)

end VJ
