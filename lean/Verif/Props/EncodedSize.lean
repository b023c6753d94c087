import Verif.Proof.EncodedSize
import Verif.Props.HeapEnc

/-!
# C75: how large encoded values are
-/

namespace VJ
set_option linter.unusedSectionVars false

section
variable [Ext] {Γ : Env} {B : Nat}

/-- **C75, MarshalTo.**  There is a number that depends on the types alone (and on how long floats and
times are when written), and whatever the value and whatever the buffer held, `MarshalTo` appends at most
that many characters for each variable, map entry, character and byte the value consists of, slices
counted up to their length.  It does not matter whether the call succeeds. -/
theorem C75_append (h : Finite Γ B) :
    ∃ K, ∀ n v w e w', Short B v → MarshalsTo Γ n (some v) w e w' → w'.buf.length ≤ w.buf.length + K * v.trim.extent := by
  obtain ⟨K, hK⟩ := terse_exists h
  refine ⟨K, fun n v w e w' hs ⟨k, hm⟩ => ?_⟩
  have := (hK k n).value v w e w' hs hm
  omega

/-- **C75, MarshalJSON.** -/
theorem C75_text (h : Finite Γ B) :
    ∃ K, ∀ n v text, Short B v → Marshals Γ n (some v) (.ok text) → text.length ≤ K * v.trim.extent := by
  obtain ⟨K, hK⟩ := terse_exists h
  refine ⟨K, fun n v text hs ⟨k, hm⟩ => ?_⟩
  simp only [marshalJSON, Out.bind_eq_ok] at hm
  obtain ⟨⟨e, w⟩, h1, h2⟩ := hm
  have := (hK k n).value v _ e w hs h1
  have h0 : (W.empty).buf.length = 0 := rfl
  cases e with
  | some e => cases h2
  | none =>
    simp only [W.build] at h2
    split at h2
    · cases h2
    · cases h2; omega

end

/-! ### the hypotheses can be met, and why the value is counted as a tree -/

namespace Examples
open Sample

attribute [local instance] Sample.ext

def forkFields : List FieldDecl := [⟨.star (.named 0), tagOpt "a" "omitempty"⟩, ⟨.star (.named 0), tagOpt "b" "omitempty"⟩]

/-- `type Fork struct { A, B *Fork }` with the tags `json:"a,omitempty"` and `json:"b,omitempty"` -/
def forkEnv : Env where
  decl
    | 0 => some (.struct false forkFields)
    | _ => none
  ext _ := .unsupp

theorem forkEnv_finite (B : Nat) : Finite forkEnv B where
  finite := ⟨[0], fun n d h => by
    match n, h with
    | 0, _ => simp
    | n + 1, h => cases h⟩
  foreign := ⟨0, fun n _ => ⟨(fun v w e w' _ h => nomatch h), (fun w e w' h => nomatch h)⟩⟩

/-- a full binary tree -/
def fork : Nat → GoVal
  | 0 => .struct [.nil, .nil]
  | k + 1 => .struct [.ptr (fork k), .ptr (fork k)]

theorem fork_short (B : Nat) : ∀ k, Short B (fork k)
  | 0 => by simp [fork, Short, ShortAll]
  | k + 1 => by simp [fork, Short, ShortAll, fork_short B k]

/-- `{}`, `{"a":{},"b":{}}`, … -/
def forkText : Nat → Str
  | 0 => ['{', '}']
  | k + 1 => ['{', '"', 'a', '"', ':'] ++ forkText k ++ [',', '"', 'b', '"', ':'] ++ forkText k ++ ['}']

theorem forkText_length (k : Nat) : 2 ^ k ≤ (forkText k).length := by
  induction k with
  | zero => simp [forkText]
  | succ k ih =>
    simp only [forkText, List.length_append, Nat.pow_succ]
    omega

theorem fork_gen : genMarshal forkEnv (.struct false forkFields) =
    .ok (.struct [⟨['a'], some .neZero, .struct 0 true, none⟩, ⟨['b'], some .neZero, .struct 0 true, none⟩]) := rfl

theorem fork_decl : forkEnv.decl 0 = some (.struct false forkFields) := rfl

theorem fork_marshals (k : Nat) : ∀ w : W, w.err = none → (forkEnv.methods (k + 1) 0).marshalTo (some (fork k)) w = .ok (none, w.raw (forkText k)) := by
  induction k with
  | zero =>
    intro w hw
    rw [Env.methods]
    simp only [fork_decl, declMethods, fork_gen, Out.ok_bind, fork, runMarshal, runBlks, runBlk, runCond, eqZero]
    simp [W.raw, forkText, hw]
  | succ k ih =>
    intro w hw
    rw [Env.methods]
    simp only [fork_decl, declMethods, fork_gen, Out.ok_bind, fork, runMarshal, runBlks, runBlk, runCond, eqZero, Bool.not_false, if_true,
      runBody, deref]
    rw [ih _ (by simpa [putComma, W.raw] using hw)]
    simp only [Out.pure_eq, Out.ok_bind, EErr.wrap?]
    rw [ih _ (by simpa [putComma, W.raw] using hw)]
    simp [W.raw, keyText, putComma, forkText, hw]

/-- one struct in memory, each of whose pointers leads to the struct before it -/
def forkCell : Nat → HVal
  | 0 => .struct [.nil, .nil]
  | k + 1 => .struct [.ptr k, .ptr k]

/-- `k` structs in memory -/
def forkHeap (k : Nat) : Heap := ⟨(List.range k).map fun j => .cells [forkCell j]⟩

theorem fork_rep (m : Nat) : ∀ k, k ≤ m → ∃ L, Rep (forkHeap m) (fork k) (forkCell k) L
  | 0, _ => ⟨[], _, rfl, .nil, _, [], [], rfl, ⟨rfl, rfl⟩, ⟨.nil, _, [], [], rfl, ⟨rfl, rfl⟩, ⟨rfl, rfl⟩, rfl⟩, rfl⟩
  | k + 1, hk => by
    obtain ⟨L, h⟩ := fork_rep m k (by omega)
    have ho : (forkHeap m).objs[k]? = some (.cells [forkCell k]) := by
      simp only [forkHeap, List.getElem?_map, List.getElem?_range (show k < m by omega), Option.map_some]
    have hp : Rep (forkHeap m) (.ptr (fork k)) (.ptr k) (k :: L) := ⟨k, _, L, rfl, ho, h, rfl⟩
    exact ⟨_, _, rfl, .ptr k, _, _, _, rfl, hp, ⟨.ptr k, _, _, [], rfl, hp, ⟨rfl, rfl⟩, rfl⟩, rfl⟩

/-- **C75 counts trees, not memory.**  In a memory of `k` structs of two pointers each, shared, there is a
value of which the text has at least `2 ^ k` characters. -/
theorem C75_shared (k : Nat) : (forkHeap k).size = k ∧
    ∃ text, MemMarshalJSON forkEnv noX 0 (some (forkCell k)) (forkHeap k) (.ok (.ok text)) ∧ 2 ^ k ≤ text.length := by
  obtain ⟨L, hr⟩ := fork_rep k k (Nat.le_refl k)
  refine ⟨by simp [Heap.size, forkHeap], forkText k, ((C61_marshalJSON (Γ := forkEnv) (X := noX) (fun n => noX_sim n) hr).1 _).2 ⟨k + 1, ?_⟩, forkText_length k⟩
  simp only [marshalJSON, fork_marshals _ W.empty rfl, Out.ok_bind]
  simp [W.raw, W.build, W.empty]

/-- the hypotheses of C75 are met for each of these trees -/
theorem C75_fork (B : Nat) : Finite forkEnv B ∧ ∀ k, Short B (fork k) ∧ Marshals forkEnv 0 (some (fork k)) (.ok (forkText k)) := by
  refine ⟨forkEnv_finite B, fun k => ⟨fork_short B k, k + 1, ?_⟩⟩
  simp only [marshalJSON, fork_marshals _ W.empty rfl, Out.ok_bind]
  simp [W.raw, W.build, W.empty]

/-- `type Item struct { S string; T *time.Time; F float64; M map[string]string; B []byte; L []int64 }` -/
def itemEnv : Env where
  decl
    | 0 => some (.struct false [⟨.prim .string, tag "s"⟩, ⟨.star .time, tag "t"⟩, ⟨.prim .float64, tag "f"⟩, ⟨.map (.prim .string), tag "m"⟩,
        ⟨.slice (.prim .byte), tag "b"⟩, ⟨.slice (.prim .int64), tag "l"⟩])
    | _ => none
  ext _ := .unsupp

def item : GoVal := .struct [.str (str "a\"b"), .ptr (.time ⟨5, 0⟩), .float 7, .map [(str "k", .str (str "v"))], .bytes [1, 2], .slice [.int (-3), .int 0] [.int 9]]

set_option maxRecDepth 200000 in
/-- the hypotheses of C75 are met, with `B = 10` -/
theorem C75_item : Finite itemEnv 10 ∧ Short 10 item ∧ item.trim.extent = 19 ∧
    Marshals itemEnv 0 (some item) (.ok (str "{\"s\":\"a\\\"b\",\"t\":\"T5\",\"f\":7,\"m\":{\"k\":\"v\"},\"b\":\"AQI=\",\"l\":[-3,0]}")) := by
  refine ⟨⟨⟨[0], fun n d h => ?_⟩, 0, fun n _ => ⟨(fun v w e w' _ h => nomatch h), (fun w e w' h => nomatch h)⟩⟩, ?_, rfl, ⟨5, rfl⟩⟩
  · match n, h with
    | 0, _ => simp
    | n + 1, h => cases h
  · have h1 : ∀ layout : Str, (Ext.fmtTime layout ⟨5, 0⟩).length = 2 := fun _ => rfl
    have h2 : (Ext.fmtFloat 7).length = 1 := rfl
    have h3 : ∀ s, Ext.timeText ⟨5, 0⟩ = some s → s.length = 2 := by rintro s ⟨⟩; rfl
    simp only [item, Short, ShortAll, ShortMembers, h1, h2, true_and, and_true]
    refine ⟨⟨fun l => by omega, fun s hs => by rw [h3 s hs]; omega⟩, by omega, by omega, by omega⟩

end Examples
end VJ
