import Verif.Model.Basic

/-!
# Concurrent calls of `MarshalJSON` and the pool of buffers

The body of every generated `MarshalJSON` (codegen/codegen.go:66-98) as a program of small
steps over shared state, for any number of calls running at the same time:

    var result jwriter.Writer
    if err := s.MarshalTo(&result); err != nil { return nil, err }
    return result.BuildBytes()

The writer of easyjson collects the text in chunks, which it takes from a pool that all writers
of the program share, and which it gives back when the text is put together (`buffer.Buffer` of
github.com/mailru/easyjson: `EnsureSpace`, `AppendBytes`, `BuildBytes`, `getBuf`, `putBuf`;
modelled from its documented behaviour, like `Model/Writer.lean`).

Simplifications: one operation of the pool is one step; the pool keeps chunks of all sizes
together (so a chunk of any size may be handed out); a chunk `putBuf` does not keep, because no
pool has its size, is put and dropped at once; when the writer goes over to a new chunk is left
open (the sizes `EnsureSpace` is asked for are not modelled), so every policy is covered; a
`MarshalJSON` inside `MarshalTo` counts as one write of its text (it has a writer of its own).
-/

namespace VJ

/-- A running `MarshalTo` (or `AppendBytes`, `RawByte`, `strconv.Append…` inside it): it writes
bytes and in the end returns, with or without an error.  Nothing it reads changes meanwhile: no
generated encoder writes to the value it encodes (`Model/RunMarshal.lean`). -/
inductive Writing (α E : Type) where
  | ret (e : Option E)
  | write (s : List α) (rest : Writing α E)

/-- What it writes, and how it ends. -/
def Writing.alone {α E : Type} : Writing α E → List α × Option E
  | .ret e => ([], e)
  | .write s rest => (s ++ rest.alone.1, rest.alone.2)

/-- A Go slice `chunk[:len]`. -/
structure GoSlice where
  chunk : Nat
  len : Nat
deriving DecidableEq

/-- `buffer.Buffer`: the full chunks, the chunk being filled, and the chunk to give back for it
(which is another one when `append` had to move the text to a bigger array). -/
structure ChunkBuf where
  bufs : List GoSlice
  buf : Option GoSlice
  toPool : Option Nat

/-- The zero `buffer.Buffer`. -/
def ChunkBuf.zero : ChunkBuf := ⟨[], none, none⟩

/-- Where a call is. -/
inductive EncPc (α E : Type) where
  /-- in `MarshalTo` -/
  | writing (b : ChunkBuf) (todo : Writing α E)
  /-- in `BuildBytes`: some chunks are copied to the result and given back -/
  | building (ret : GoSlice) (todo : List GoSlice) (last : Option GoSlice) (toPool : Option Nat)
  /-- in `BuildBytes`: the chunk is copied and must be given back -/
  | giving (ret : GoSlice) (c : Nat) (todo : List GoSlice) (last : Option GoSlice) (toPool : Option Nat)
  /-- in `BuildBytes`: everything is copied, the last chunk must be given back -/
  | closing (ret : GoSlice) (toPool : Option Nat)
  /-- returned the slice (`none`: no bytes at all); has the caller written to it since? -/
  | done (ret : Option GoSlice) (touched : Bool)
  /-- returned an error -/
  | failed (e : E)

/-- The chunks of a call: no other call and no pool may have them.  A returned slice belongs to
the caller. -/
def EncPc.owns {α E : Type} : EncPc α E → List Nat
  | .writing b _ => b.bufs.map (·.chunk) ++ (b.buf.map (·.chunk)).toList ++
      b.toPool.toList.filter fun c => some c ≠ b.buf.map (·.chunk)
  | .building ret todo last toPool => ret.chunk :: todo.map (·.chunk) ++ (last.map (·.chunk)).toList ++
      toPool.toList.filter fun c => some c ≠ last.map (·.chunk)
  | .giving ret c todo last toPool => ret.chunk :: c :: todo.map (·.chunk) ++ (last.map (·.chunk)).toList ++
      toPool.toList.filter fun c => some c ≠ last.map (·.chunk)
  | .closing ret toPool => ret.chunk :: toPool.toList
  | .done ret _ => (ret.map (·.chunk)).toList
  | .failed _ => []

/-- The shared state: the pool, the memory of each chunk (its length is the capacity), how many
chunks were ever made, and where each call is. -/
structure EncWorld (α E : Type) where
  pool : List Nat
  mem : Nat → List α
  made : Nat
  pc : Nat → EncPc α E

/-- Before any call: an empty pool; call `t` is about to run `calls t`. -/
def EncWorld.init {α E : Type} (calls : Nat → Writing α E) : EncWorld α E where
  pool := []
  mem _ := []
  made := 0
  pc t := .writing .zero (calls t)

/-- `f` with `a` at `n`. -/
def setAt {α : Type} (f : Nat → α) (n : Nat) (a : α) : Nat → α := fun m => if m = n then a else f m

/-- The bytes of a slice. -/
def GoSlice.read {α : Type} (mem : Nat → List α) (p : GoSlice) : List α := (mem p.chunk).take p.len

/-- `append(p, s...)` where there is room: the bytes after the slice are overwritten. -/
def GoSlice.overwrite {α : Type} (old : List α) (len : Nat) (s : List α) : List α :=
  old.take len ++ s ++ old.drop (len + s.length)

/-- One step of one call, of a caller that has got its result, or of the pool. -/
inductive EncStep {α E : Type} : EncWorld α E → EncWorld α E → Prop where
  /-- `getBuf` with nothing in the pool: a new chunk of any size -/
  | getNew {w} (t : Nat) (bufs : List GoSlice) (todo : Writing α E) (zeros : List α) :
      w.pc t = .writing ⟨bufs, none, none⟩ todo →
      EncStep w { w with
        mem := setAt w.mem w.made zeros
        made := w.made + 1
        pc := setAt w.pc t (.writing ⟨bufs, some ⟨w.made, 0⟩, some w.made⟩ todo) }
  /-- `getBuf` gives a chunk of the pool, with whatever is in it -/
  | getPooled {w} (t : Nat) (bufs : List GoSlice) (todo : Writing α E) (c : Nat) :
      w.pc t = .writing ⟨bufs, none, none⟩ todo → c ∈ w.pool →
      EncStep w { w with
        pool := w.pool.erase c
        pc := setAt w.pc t (.writing ⟨bufs, some ⟨c, 0⟩, some c⟩ todo) }
  /-- `ensureSpaceSlow` with a used chunk: it goes to the full ones; when `append` moved the text
  the chunk it was moved from is given back -/
  | retire {w} (t : Nat) (bufs : List GoSlice) (p : GoSlice) (c : Nat) (todo : Writing α E) :
      w.pc t = .writing ⟨bufs, some p, some c⟩ todo → 0 < p.len →
      EncStep w { w with
        pool := if (w.mem c).length ≠ (w.mem p.chunk).length then c :: w.pool else w.pool
        pc := setAt w.pc t (.writing ⟨bufs ++ [p], none, none⟩ todo) }
  /-- `ensureSpaceSlow` with an unused chunk, which is too small: it is forgotten -/
  | discard {w} (t : Nat) (bufs : List GoSlice) (p : GoSlice) (c : Nat) (todo : Writing α E) :
      w.pc t = .writing ⟨bufs, some p, some c⟩ todo → p.len = 0 →
      EncStep w { w with pc := setAt w.pc t (.writing ⟨bufs, none, none⟩ todo) }
  /-- bytes are appended where there is room for them -/
  | append {w} (t : Nat) (bufs : List GoSlice) (p : GoSlice) (toPool : Option Nat) (s s' : List α)
      (rest : Writing α E) :
      w.pc t = .writing ⟨bufs, some p, toPool⟩ (.write (s ++ s') rest) →
      p.len + s.length ≤ (w.mem p.chunk).length →
      EncStep w { w with
        mem := setAt w.mem p.chunk (GoSlice.overwrite (w.mem p.chunk) p.len s)
        pc := setAt w.pc t (.writing ⟨bufs, some ⟨p.chunk, p.len + s.length⟩, toPool⟩ (.write s' rest)) }
  /-- bytes are appended where there is no room: Go makes a bigger array and copies -/
  | move {w} (t : Nat) (bufs : List GoSlice) (p : GoSlice) (toPool : Option Nat) (s : List α)
      (rest : Writing α E) (zeros : List α) :
      w.pc t = .writing ⟨bufs, some p, toPool⟩ (.write s rest) →
      (w.mem p.chunk).length < p.len + s.length →
      EncStep w { w with
        mem := setAt w.mem w.made (p.read w.mem ++ s ++ zeros)
        made := w.made + 1
        pc := setAt w.pc t (.writing ⟨bufs, some ⟨w.made, p.len + s.length⟩, toPool⟩ rest) }
  /-- a write is complete -/
  | wrote {w} (t : Nat) (b : ChunkBuf) (rest : Writing α E) :
      w.pc t = .writing b (.write [] rest) →
      EncStep w { w with pc := setAt w.pc t (.writing b rest) }
  /-- `MarshalTo` returned an error: so does `MarshalJSON`, and the chunks are forgotten -/
  | fail {w} (t : Nat) (b : ChunkBuf) (e : E) :
      w.pc t = .writing b (.ret (some e)) →
      EncStep w { w with pc := setAt w.pc t (.failed e) }
  /-- `BuildBytes` with one chunk: the chunk itself is the result, and is not given back -/
  | buildOne {w} (t : Nat) (last : Option GoSlice) (toPool : Option Nat) :
      w.pc t = .writing ⟨[], last, toPool⟩ (.ret none) →
      EncStep w { w with pc := setAt w.pc t (.done last false) }
  /-- `BuildBytes` with more chunks: a new array of the whole size -/
  | buildMany {w} (t : Nat) (p : GoSlice) (bufs : List GoSlice) (last : Option GoSlice) (toPool : Option Nat)
      (zeros : List α) :
      w.pc t = .writing ⟨p :: bufs, last, toPool⟩ (.ret none) →
      ((p :: bufs) ++ last.toList).foldr (fun q n => q.len + n) 0 ≤ zeros.length →
      EncStep w { w with
        mem := setAt w.mem w.made zeros
        made := w.made + 1
        pc := setAt w.pc t (.building ⟨w.made, 0⟩ (p :: bufs) last toPool) }
  /-- `ret = append(ret, buf...)` -/
  | copy {w} (t : Nat) (ret p : GoSlice) (todo : List GoSlice) (last : Option GoSlice) (toPool : Option Nat) :
      w.pc t = .building ret (p :: todo) last toPool →
      EncStep w { w with
        mem := setAt w.mem ret.chunk (GoSlice.overwrite (w.mem ret.chunk) ret.len (p.read w.mem))
        pc := setAt w.pc t (.giving ⟨ret.chunk, ret.len + (p.read w.mem).length⟩ p.chunk todo last toPool) }
  /-- `putBuf(buf)` -/
  | give {w} (t : Nat) (ret : GoSlice) (c : Nat) (todo : List GoSlice) (last : Option GoSlice) (toPool : Option Nat) :
      w.pc t = .giving ret c todo last toPool →
      EncStep w { w with
        pool := c :: w.pool
        pc := setAt w.pc t (.building ret todo last toPool) }
  /-- `ret = append(ret, b.Buf...)` -/
  | copyLast {w} (t : Nat) (ret : GoSlice) (last : Option GoSlice) (toPool : Option Nat) :
      w.pc t = .building ret [] last toPool →
      EncStep w { w with
        mem := setAt w.mem ret.chunk (GoSlice.overwrite (w.mem ret.chunk) ret.len ((last.map (·.read w.mem)).getD []))
        pc := setAt w.pc t (.closing ⟨ret.chunk, ret.len + ((last.map (·.read w.mem)).getD []).length⟩ toPool) }
  /-- `putBuf(b.toPool)`, and the call returns -/
  | close {w} (t : Nat) (ret : GoSlice) (toPool : Option Nat) :
      w.pc t = .closing ret toPool →
      EncStep w { w with
        pool := toPool.toList ++ w.pool
        pc := setAt w.pc t (.done (some ret) false) }
  /-- the caller writes to the slice it got, also behind its end -/
  | touch {w} (t : Nat) (ret : GoSlice) (b : Bool) (junk : List α) :
      w.pc t = .done (some ret) b →
      EncStep w { w with
        mem := setAt w.mem ret.chunk junk
        pc := setAt w.pc t (.done (some ret) true) }
  /-- the pool drops a chunk -/
  | drop {w} (c : Nat) : c ∈ w.pool → EncStep w { w with pool := w.pool.erase c }

/-- Any number of steps, in any order: every schedule. -/
inductive EncRun {α E : Type} : EncWorld α E → EncWorld α E → Prop where
  | refl {w} : EncRun w w
  | step {w w' w''} : EncRun w w' → EncStep w' w'' → EncRun w w''

end VJ
