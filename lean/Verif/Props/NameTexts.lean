import Verif.Props.EncodeSamples

/-!
# C21: JSON names that need escaping

The generated code copies JSON names into its output as they are.  `EncPackage` therefore asks
for names without quotes, backslashes and control characters; here is why.
-/

namespace VJ.Examples

/-- `json:"a\"b"` -/
def quoteNameEnv : Env where
  decl := fun n =>
    if n = 0 then some (.struct false [⟨.prim .string, { jsonName := str "a\"b" }⟩])
    else none
  ext := fun _ => .loop

section
attribute [local instance] Sample.ext

theorem quoteName_refused : ¬ ∃ jv, Json jv (str "{\"a\"b\":\"x\"}") := not_json (by decide +kernel) (by decide)

set_option maxRecDepth 200000 in
theorem quoteName_written : Marshals quoteNameEnv 0 (some (.struct [.str (str "x")])) (.ok (str "{\"a\"b\":\"x\"}")) := ⟨5, rfl⟩

set_option maxRecDepth 200000 in
/-- **C21 fails** for a name with a quote: the output is not JSON, although such
members are read. -/
theorem C21_name_with_quote :
    Marshals quoteNameEnv 0 (some (.struct [.str (str "x")])) (.ok (str "{\"a\"b\":\"x\"}")) ∧
    (¬ ∃ jv, Json jv (str "{\"a\"b\":\"x\"}")) ∧
    Fills quoteNameEnv 0 (.obj [(str "a\"b", .str (str "x"))]) (.struct [.str []]) none (.struct [.str (str "x")]) :=
  ⟨quoteName_written, quoteName_refused, ⟨5, rfl⟩⟩

end

end VJ.Examples
