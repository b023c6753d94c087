import Verif.Model.HeapEnc

/-!
# `Reset` in memory

What `Reset` assigns to is in memory, so that slices and maps that are shared change for
everyone who holds them.
-/

namespace VJ

/-- `for i := range x { … x[i] … }` (codegen/codegen.go:127-136, codegen/array.go:300-303) with `x` at `p`: the length is taken once,
`x[i]` is evaluated in every round.  `n` rounds are left, the next one is round `i`. -/
def hresetElems (f : Spot → Heap → Out Heap) (p : Spot) : Nat → Nat → Heap → Out Heap
  | 0, _, h => .ok h
  | n + 1, i, h =>
    match h.read p with
    | some (.slice l off len _) =>
      if i < len then do
        let h ← f (.cell l (off + i)) h
        hresetElems f p n (i + 1) h
      else .panic
    | _ => .unsupp

/-- the same loop over bytes: `x[i] = 0` (codegen/codegen.go:127-136) -/
def zeroBytes (l off : Nat) : Nat → Heap → Heap
  | 0, h => h
  | n + 1, h => (zeroBytes l off n h).write (.cell l (off + n)) (.int 0)

/-- `x = x[:0]` with `x` at `p` (codegen/codegen.go:137, codegen/array.go:306-312) -/
def htruncate (p : Spot) (h : Heap) : Out Heap :=
  match h.read p with
  | some (.slice l off _ cap) => .ok (h.write p (.slice l off 0 cap))
  | some (.bytes l off _ cap) => .ok (h.write p (.bytes l off 0 cap))
  | some _ => .ok h
  | none => .unsupp

/-- Statements of `resetStmt` (codegen/codegen.go:120-214, see `runReset`) on what is at `p`.  In nested loops the outer index
expressions are evaluated once per round of the outer loop. -/
def hrunReset (M : Nat → HMethods) : RIR → Spot → Heap → Out Heap
  | .slice x, p, h =>
    match h.read p with
    | some .nil => .ok h
    | some (.slice _ _ len _) => do
      let h ← hresetElems (hrunReset M x) p len 0 h
      htruncate p h
    | _ => .unsupp
  | .bytes, p, h =>
    match h.read p with
    | some .nil => .ok h
    | some (.bytes l off len cap) => .ok ((zeroBytes l off len h).write p (.bytes l off 0 cap))
    | _ => .unsupp
  | .const t, p, h => do
    let z ← hzeroT M t
    return h.write p z
  | .clearMap, p, h =>
    match h.read p with
    | some .nil => .ok h
    | some (.map l) => do
      let kvs ← h.entries l
      return (if kvs.length > 10000 then h.write p .nil else ⟨h.objs.set l (.map [])⟩)
    | _ => .unsupp
  | .method n, p, h => (M n).reset p h

/-- All fields in order (codegen/struct.go:335-360); `i` is the number of the first, `n` the number of fields. -/
def hrunResets (M : Nat → HMethods) (p : Spot) : Nat → Nat → List RIR → Heap → Out Heap
  | 0, _, [], h => .ok h
  | n + 1, i, x :: xs, h => do
    let h ← hrunReset M x (p.part i) h
    hrunResets M p n (i + 1) xs h
  | _, _, _, _ => .unsupp

/-- `m[k] = v` where `k` was the key of entry number `i` when the loop reached it.  The keys of a map are distinct. -/
def Heap.entryPut (h : Heap) (l : Loc) (i : Nat) (k : Str) (v : HVal) : Out Heap :=
  match h.objs[l]? with
  | some (.map kvs) =>
    if kvs[i]?.map (·.1) = some k then .ok ⟨h.objs.set l (.map (kvs.set i (k, v)))⟩
    else h.mapPut l k v
  | _ => .unsupp

/-- `for k, v := range m { reset v; m[k] = v }` (codegen/map.go:270-292), `n` rounds left, the next
is on entry number `i`; `v` is a variable of its own.  Simplification: if entries are deleted
meanwhile (a map that contains itself), the loop goes on with the entries at the following positions. -/
def hresetEntries (f : Spot → Heap → Out Heap) (l : Loc) : Nat → Nat → Heap → Out Heap
  | 0, _, h => .ok h
  | n + 1, i, h => do
    let kvs ← h.entries l
    match kvs[i]? with
    | none => return h
    | some (k, v) =>
      let h1 ← f (.cell h.size 0) (h.alloc (.cells [v]))
      match h1.read (.cell h.size 0) with
      | some w =>
        let h2 ← h1.entryPut l i k w
        hresetEntries f l n (i + 1) h2
      | none => .unsupp

/-- `Reset` of a declared type, the receiver at `p` (codegen/{struct,map,array,byteslice,transit}.go, see `runResetDecl`). -/
def hrunResetDecl (M : Nat → HMethods) (ir : ResetIR) (p : Spot) (h : Heap) : Out Heap :=
  match ir with
  | .struct xs =>
    match h.read p with
    | some (.struct vs) => hrunResets M p vs.length 0 xs h
    | _ => .unsupp
  | .map x =>
    match h.read p with
    | some .nil => .ok h
    | some (.map l) => do
      let kvs ← h.entries l
      hresetEntries (hrunReset M x) l kvs.length 0 h
    | _ => .unsupp
  | .list none => htruncate p h
  | .list (some n) =>
    match h.read p with
    | some .nil => .ok h
    | some (.slice _ _ len _) => do
      let h ← hresetElems (M n).reset p len 0 h
      htruncate p h
    | _ => .unsupp
  | .const t => do
    let z ← hzeroT M t
    return h.write p z
  | .bytes => htruncate p h
  | .single x => hrunReset M x p h

end VJ
