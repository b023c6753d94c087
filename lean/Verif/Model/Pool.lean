import Verif.Model.Basic

/-!
# Concurrent calls of `UnmarshalJSON` and the pools of parsers

The body of every generated `UnmarshalJSON` (codegen/codegen.go:31-64) as a program of small
steps over shared state, for any number of calls running at the same time:

    parser := jsonParserX.Get()
    v, err := parser.ParseBytes(data)
    if err != nil { return err }
    defer jsonParserX.Put(parser)
    return s.FillFromJSON(v)

Parsing is a parameter (`parse`), and so is what is decoded (`V` for parsed documents, `R` for
what `FillFromJSON` ends with).  A `FillFromJSON` that panics runs the deferred `Put` too, so a
panic is one more thing it may end with.  Simplifications: one operation of `sync.Pool` is one
step; a look at the document reads all of it (the document does not change meanwhile, see
`C36_document_stays`); a parser knows nothing but the last document it parsed.
-/

namespace VJ

/-- A running `FillFromJSON`: it looks at the parsed document, which is memory of the parser,
as often as it likes, and in the end returns.  What it returns is its own: the generated code
copies every string out of the document (`string(b)`: field/fields.go:219, field/fill.go:420
and 551, map.go:139 and 150, struct.go:148-168; byteslice.go:50-65 decodes into new memory). -/
inductive Reading (V R : Type) where
  | ret (r : R)
  | read (next : V → Reading V R)

/-- What it returns when the document does not change meanwhile. -/
def Reading.alone {V R : Type} (v : V) : Reading V R → R
  | .ret r => r
  | .read next => (next v).alone v

/-- One call `x.UnmarshalJSON(data)`: the type of `x` (which names the pool), the data, and the
`FillFromJSON` of that type on that receiver. -/
structure Call (V R : Type) where
  typ : Nat
  data : Str
  fill : Reading V R

/-- How a call ends: with the error of the parser, or with what `FillFromJSON` returned. -/
inductive CallResult (R : Type) where
  | parseError
  | finished (r : R)
deriving DecidableEq

/-- Where a call is. -/
inductive Pc (V R : Type) where
  /-- not begun -/
  | start
  /-- after `Get` -/
  | got (p : Nat)
  /-- `ParseBytes` succeeded; inside `FillFromJSON` -/
  | filling (p : Nat) (body : Reading V R)
  /-- `FillFromJSON` returned; the deferred `Put` is still to come -/
  | filled (p : Nat) (r : R)
  /-- returned -/
  | done (r : CallResult R)

/-- The parser a call is using. -/
def Pc.holds {V R : Type} : Pc V R → Option Nat
  | .start => none
  | .got p => some p
  | .filling p _ => some p
  | .filled p _ => some p
  | .done _ => none

/-- The shared state: the parsers in the pool of each type, what each parser holds (`none`:
anything), how many parsers were ever made, and where each call is. -/
structure World (V R : Type) where
  pool : Nat → List Nat
  mem : Nat → Option V
  made : Nat
  pc : Nat → Pc V R

/-- Before any call. -/
def World.init {V R : Type} : World V R where
  pool _ := []
  mem _ := none
  made := 0
  pc _ := .start

def update {α : Type} (f : Nat → α) (n : Nat) (a : α) : Nat → α := fun m => if m = n then a else f m

/-- One step of one call, or of the garbage collector. -/
inductive PoolStep {V R : Type} (parse : Str → Option V) (calls : Nat → Call V R) :
    World V R → World V R → Prop where
  /-- `Get` on a pool that gives nothing: a new parser (fastjson `ParserPool.Get`) -/
  | getNew {w} (t : Nat) : w.pc t = .start →
      PoolStep parse calls w { w with made := w.made + 1, pc := update w.pc t (.got w.made) }
  /-- `Get` on a pool that gives one of its parsers (`sync.Pool` may give any of them) -/
  | getPooled {w} (t p : Nat) : w.pc t = .start → p ∈ w.pool (calls t).typ →
      PoolStep parse calls w { w with
        pool := update w.pool (calls t).typ ((w.pool (calls t).typ).erase p)
        pc := update w.pc t (.got p) }
  /-- `ParseBytes` succeeds: the parser now holds the document (and no longer what it held) -/
  | parseOk {w} (t p : Nat) (v : V) : w.pc t = .got p → parse (calls t).data = some v →
      PoolStep parse calls w { w with
        mem := update w.mem p (some v)
        pc := update w.pc t (.filling p (calls t).fill) }
  /-- `ParseBytes` fails: the call returns at once, before the `defer` -/
  | parseFail {w} (t p : Nat) (junk : Option V) : w.pc t = .got p →
      parse (calls t).data = none →
      PoolStep parse calls w { w with
        mem := update w.mem p junk
        pc := update w.pc t (.done .parseError) }
  /-- `FillFromJSON` looks at the document -/
  | look {w} (t p : Nat) (next : V → Reading V R) (v : V) : w.pc t = .filling p (.read next) →
      w.mem p = some v →
      PoolStep parse calls w { w with pc := update w.pc t (.filling p (next v)) }
  /-- `FillFromJSON` returns -/
  | fillReturns {w} (t p : Nat) (r : R) : w.pc t = .filling p (.ret r) →
      PoolStep parse calls w { w with pc := update w.pc t (.filled p r) }
  /-- the deferred `Put`, and the call returns -/
  | put {w} (t p : Nat) (r : R) : w.pc t = .filled p r →
      PoolStep parse calls w { w with
        pool := update w.pool (calls t).typ (p :: w.pool (calls t).typ)
        pc := update w.pc t (.done (.finished r)) }
  /-- `sync.Pool` drops a parser -/
  | drop {w} (n p : Nat) : p ∈ w.pool n →
      PoolStep parse calls w { w with pool := update w.pool n ((w.pool n).erase p) }

/-- Any number of steps, in any order: every schedule. -/
inductive Run {V R : Type} (parse : Str → Option V) (calls : Nat → Call V R) :
    World V R → World V R → Prop where
  | refl {w} : Run parse calls w w
  | step {w w' w''} : Run parse calls w w' → PoolStep parse calls w' w'' → Run parse calls w w''

end VJ
