/-!
# Basic vocabulary of the model

Text, outcomes of running emitted code, and the external functions that are kept
abstract.
-/

namespace VJ

/-- Go strings and JSON text.  Simplification: sequences of Unicode scalar values
instead of bytes, so strings that are not valid UTF-8 are outside the model. -/
abbrev Str := List Char

/-- Literal helper: `s!"abc"` style constants are written `str "abc"`. -/
abbrev str (s : String) : Str := s.toList

/-- IEEE-754 double precision bit pattern (Go `float64`; a Go `float32` is stored as the
`float64` it converts to exactly). -/
abbrev F64 := UInt64

/-- Go's `f == 0` on floats: true for `+0` and `-0`. -/
def F64.isZero (f : F64) : Bool := f == 0 || f == 0x8000000000000000

/-- `time.Time`: an instant (nanoseconds since the zero time, 0001-01-01T00:00:00Z) and
the offset of its location.  Simplification: locations are reduced to their offset. -/
structure Time where
  ns : Int
  off : Int
deriving DecidableEq, Repr

/-- The zero value `time.Time{}`. -/
def Time.zero : Time := ⟨0, 0⟩

/-- `time.Time.IsZero`: the instant is the zero instant, whatever the location. -/
def Time.isZero (t : Time) : Bool := t.ns == 0

/-- Functions of the Go standard library and of fastjson that are *not* modelled: float
parsing and printing, and date-time parsing and printing.  Everything in the model is
parametric in them. -/
class Ext where
  /-- `fastfloat.Parse` on a raw JSON number token (fastjson `Value.Float64`). -/
  parseFloat : Str → Option F64
  /-- `jwriter.Writer.Float64` (strconv.AppendFloat with 'g', -1, 64). -/
  fmtFloat : F64 → Str
  /-- the comparison `f > math.MaxFloat32`. -/
  gtMaxFloat32 : F64 → Bool
  /-- the conversion `float32(f)`, read back as a `float64`. -/
  toFloat32 : F64 → F64
  /-- `time.Parse(layout, value)`. -/
  parseTime : Str → Str → Option Time
  /-- `t.AppendFormat(nil, layout)`. -/
  fmtTime : Str → Time → Str
  /-- `t.MarshalText()`; `none` when it fails (year outside 0..9999). -/
  timeText : Time → Option Str

/-- Outcome of running emitted code. -/
inductive Out (α : Type) where
  /-- the code returned normally -/
  | ok (a : α)
  /-- the code panicked -/
  | panic
  /-- the bound on nested method calls was reached (never a normal result) -/
  | loop
  /-- there is no such code: the generator panics, or what it emits does not compile,
  or the construct is outside the model -/
  | unsupp
deriving DecidableEq, Repr

namespace Out

def bind {α β : Type} : Out α → (α → Out β) → Out β
  | ok a, f => f a
  | panic, _ => panic
  | loop, _ => loop
  | unsupp, _ => unsupp

instance : Monad Out where
  pure := Out.ok
  bind := Out.bind

def ofOption {α : Type} : Option α → Out α
  | some a => ok a
  | none => unsupp

@[simp] theorem pure_eq {α : Type} (a : α) : (pure a : Out α) = ok a := rfl
@[simp] theorem ok_bind {α β : Type} (a : α) (f : α → Out β) : (ok a >>= f) = f a := rfl
@[simp] theorem panic_bind {α β : Type} (f : α → Out β) : ((panic : Out α) >>= f) = panic := rfl
@[simp] theorem loop_bind {α β : Type} (f : α → Out β) : ((loop : Out α) >>= f) = loop := rfl
@[simp] theorem unsupp_bind {α β : Type} (f : α → Out β) : ((unsupp : Out α) >>= f) = unsupp := rfl

theorem bind_assoc {α β γ : Type} (x : Out α) (f : α → Out β) (g : β → Out γ) :
    ((x >>= f) >>= g) = (x >>= fun a => f a >>= g) := by
  cases x <;> rfl

theorem bind_eq_ok {α β : Type} {x : Out α} {f : α → Out β} {b : β} :
    (x >>= f) = ok b ↔ ∃ a, x = ok a ∧ f a = ok b := by
  cases x <;> simp

instance : LawfulMonad Out := LawfulMonad.mk'
  (id_map := by intro α x; cases x <;> rfl)
  (pure_bind := by intros; rfl)
  (bind_assoc := by intro α β γ x f g; cases x <;> rfl)

end Out

end VJ
