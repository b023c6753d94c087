import Verif.Model.ErrorText
import Verif.Spec.Errors
import Verif.Spec.EncodeError

/-!
# Reading the messages of errors
-/

namespace VJ

/-! ## Decoding -/

/-- the parts of a text between its dots -/
def pieces : Str → List Str
  | [] => [[]]
  | c :: cs =>
    if c = '.' then [] :: pieces cs
    else match pieces cs with
      | [] => [[c]]
      | p :: ps => (c :: p) :: ps

/-- The place a message names, as a reader finds it: after `error parsing '`, up to the next
apostrophe, cut at the dots.  A message that does not start so is about the whole document. -/
def placeIn (message : Str) : List Str :=
  if msg "error parsing '" <+: message then pieces ((message.drop 15).takeWhile (· != '\'')) else []

/-- a name that can be told in a message: no dots and no apostrophes -/
def Tellable (name : Str) : Prop := '.' ∉ name ∧ '\'' ∉ name

/-- a key of an object somewhere in a document -/
inductive DocKey : Str → JV → Prop
  | here {key : Str} {a : JV} {kvs : List (Str × JV)} (h : (key, a) ∈ kvs) : DocKey key (.obj kvs)
  | member {key k : Str} {a : JV} {kvs : List (Str × JV)} (hm : (k, a) ∈ kvs) (h : DocKey key a) : DocKey key (.obj kvs)
  | elem {key : Str} {a : JV} {l : List JV} (hm : a ∈ l) (h : DocKey key a) : DocKey key (.arr l)

/-- The messages of other packages and of hand-written methods do not look like the ones that
name a place, and hand-written decoders return errors of their own. -/
structure PlainMessages (Γ : Env) (other : Cause → Str) : Prop where
  other : ∀ c, placeIn (other c) = []
  foreign : ∀ n v s e s', Γ.decl n = none → (Γ.ext n).fill v s = .ok (some e, s') → e.path = none

/-- every JSON name in a package can be told -/
def TellableNames (Γ : Env) : Prop :=
  ∀ n strict fields fd, Γ.decl n = some (.struct strict fields) → fd ∈ fields → Tellable fd.tags.jsonName

/-! ## Encoding -/

/-- `errors.Is`: the error is the cause, or what it wraps leads to the cause -/
inductive LeadsBack : GoErr → GoErr → Prop
  | self {e : GoErr} : LeadsBack e e
  | wraps {e e' cause : GoErr} (h : e.unwrap = some e') (h' : LeadsBack e' cause) : LeadsBack e cause

/-- the message for one place, in front of the message of the error there; `quoted` is what `%q`
makes of a key, `typ` the name of the type whose method it is -/
def ECtx.says (quoted : Str → Str) (typ : Str) : ECtx → Str
  | .attr name => msg "can't marshal \"" ++ name ++ msg "\" attribute: "
  | .item [] i => msg "can't marshal \"" ++ typ ++ msg "\" value at position " ++ natStr i ++ msg ": "
  | .item name i => msg "can't marshal \"" ++ name ++ msg "\" item at position " ++ natStr i ++ msg ": "
  | .member [] key => msg "can't marshal \"" ++ typ ++ msg "\" attribute " ++ quoted key ++ msg ": "
  | .member name key => msg "can't marshal \"" ++ name ++ msg "\" attribute " ++ quoted key ++ msg ": "

/-- the message for a way through a value -/
def saysAll (quoted : Str → Str) : List (ECtx × Str) → Str → Str
  | [], cause => cause
  | (c, typ) :: cs, cause => c.says quoted typ ++ saysAll quoted cs cause

/-- the JSON name in it -/
def ECtx.name : ECtx → Str
  | .attr name | .item name _ | .member name _ => name

/-- no percent sign in the names of the places of an error -/
def EErr.NoPercent (e : EErr) : Prop := ∀ c ∈ e.ctx, '%' ∉ c.name

/-- no JSON name has a percent sign; hand-written encoders do not name places with one -/
structure NoPercents (Γ : Env) : Prop where
  names : ∀ n strict fields fd, Γ.decl n = some (.struct strict fields) → fd ∈ fields → '%' ∉ fd.tags.jsonName
  foreign : ∀ n r w e w', Γ.decl n = none → (∀ x, w.err = some x → x.NoPercent) → (Γ.ext n).marshalTo r w = .ok (e, w') →
    (∀ x, e = some x → x.NoPercent) ∧ ∀ x, w'.err = some x → x.NoPercent

end VJ
