import Verif.Proof.Growth
import Verif.Props.SameName

/-!
# C73: how large decoded values are
-/

namespace VJ
set_option linter.unusedSectionVars false

/-! ## documents and texts -/

theorem looseStr_length {s t : Str} (h : LooseStr s t) : s.length ≤ t.length := by
  induction h with
  | nil => simp
  | char _ _ _ ih => simp only [List.length_cons]; omega
  | esc _ _ ih => simp only [List.length_cons, List.length_append, List.cons_append]; omega
  | unknown _ _ ih => simp only [List.length_cons]; omega
  | noHex _ _ ih => simp only [List.length_cons]; omega
  | alone _ _ _ _ ih => simp only [List.length_cons, List.length_append, List.cons_append]; omega
  | noPair _ _ _ _ _ ih => simp only [List.length_cons, List.length_append, List.cons_append]; omega

theorem joinComma_length : ∀ ts : List Str, (ts.map List.length).sum ≤ (joinComma ts).length
  | [] => by simp [joinComma]
  | [t] => by simp [joinComma]
  | t :: u :: ts => by
    have := joinComma_length (u :: ts)
    simp only [joinComma, List.length_append, List.length_cons, List.map_cons, List.sum_cons] at *
    omega

theorem docExtents_texts : ∀ {l : List JV} {ps : List ElemText}, ps.length = l.length →
    (∀ (i : Nat) (v : JV) (p : ElemText), l[i]? = some v → ps[i]? = some p → v.extent ≤ 2 * p.body.length) →
    docExtents l ≤ 2 * ((ps.map ElemText.text).map List.length).sum
  | [], _, _, _ => by simp [docExtents]
  | v :: l, [], hl, _ => by simp at hl
  | v :: l, p :: ps, hl, h => by
    have h1 := h 0 v p (by simp) (by simp)
    have h2 := docExtents_texts (l := l) (ps := ps) (by simpa using hl) fun i v p hv hp => h (i + 1) v p (by simpa using hv) (by simpa using hp)
    simp only [docExtents, List.map_cons, List.sum_cons, ElemText.text, List.length_append] at *
    omega

theorem memberExtents_texts : ∀ {l : List (Str × JV)} {ps : List MemberText}, ps.length = l.length →
    (∀ (i : Nat) (kv : Str × JV) (p : MemberText), l[i]? = some kv → ps[i]? = some p → kv.1.length ≤ p.key.length) →
    (∀ (i : Nat) (kv : Str × JV) (p : MemberText), l[i]? = some kv → ps[i]? = some p → kv.2.extent ≤ 2 * p.body.length) →
    memberExtents l ≤ 2 * ((ps.map MemberText.text).map List.length).sum
  | [], _, _, _, _ => by simp [memberExtents]
  | kv :: l, [], hl, _, _ => by simp at hl
  | (k, v) :: l, p :: ps, hl, hk, h => by
    have h0 := hk 0 (k, v) p (by simp) (by simp)
    have h1 := h 0 (k, v) p (by simp) (by simp)
    have h2 := memberExtents_texts (l := l) (ps := ps) (by simpa using hl) (fun i v p hv hp => hk (i + 1) v p (by simpa using hv) (by simpa using hp))
      fun i v p hv hp => h (i + 1) v p (by simpa using hv) (by simpa using hp)
    simp only [memberExtents, List.map_cons, List.sum_cons, MemberText.text, List.length_append, List.length_cons] at *
    omega

theorem looseNum_length {s : Str} (h : LooseNum s) : 1 ≤ s.length := by
  rcases h with ⟨h, _⟩ | ⟨sign, n, rfl, _, a, b, c, rfl, _⟩
  · exact List.length_pos_iff.2 h
  · simp only [List.length_append, List.length_cons]; omega

theorem looseJson_extent {v : JV} {s : Str} (h : LooseJson v s) : v.extent ≤ 2 * s.length := by
  induction h with
  | null => decide
  | true => decide
  | false => decide
  | num h => have := looseNum_length h; simp only [JV.extent]; omega
  | str h => have := looseStr_length h; simp only [JV.extent, List.length_cons, List.length_append]; omega
  | arr0 => simp [JV.extent, docExtents]; omega
  | arr _ hl _ _ ih =>
    have h1 := docExtents_texts hl ih
    have h2 := joinComma_length (List.map ElemText.text ‹List ElemText›)
    simp only [JV.extent, List.length_cons, List.length_append]
    omega
  | obj0 => simp [JV.extent, memberExtents]; omega
  | obj _ hl _ hk _ ih =>
    have h1 := memberExtents_texts hl (fun i kv p h1 h2 => looseStr_length (hk i kv p h1 h2)) ih
    have h2 := joinComma_length (List.map MemberText.text ‹List MemberText›)
    simp only [JV.extent, List.length_cons, List.length_append]
    omega

/-- a document is at most twice as large as its text -/
theorem looseDocument_extent {v : JV} {s : Str} (h : LooseDocument v s) : v.extent ≤ 2 * s.length := by
  rcases h with ⟨a, b, c, rfl, _, _, h, _⟩ | ⟨a, sign, rfl, _, h, rfl⟩
  · have := looseJson_extent h
    simp only [List.length_append]; omega
  · rcases h with rfl | rfl <;> simp [JV.extent] <;> omega

section
variable [Ext] {Γ : Env}

/-- **C73, documents, partial** (no member is read into two fields): there is a number that depends on
the types alone, and whatever the document and whatever the receiver held, decoding adds at most that
many variables, characters and bytes for each value, member and character of the document.  It does not
matter whether the decode succeeds. -/
theorem C73_document_partial (h : ReadOnce Γ) :
    ∃ K, ∀ n doc old e new, Fills Γ n doc old e new → new.extent ≤ old.extent + K * doc.extent := fills_extent h

/-- **C73, texts, partial**: … and for each character of the text. -/
theorem C73_text_partial (h : ReadOnce Γ) :
    ∃ K, ∀ n data old e new, Unmarshals Γ n data old e new → new.extent ≤ old.extent + K * data.length := by
  obtain ⟨K, hK⟩ := fills_extent h
  refine ⟨2 * K, fun n data old e new hu => ?_⟩
  by_cases hj : NotJSON data
  · rw [(C02_not_json hj hu).2]; omega
  · obtain ⟨v, hv⟩ : ∃ v, LooseDocument v data := by
      refine Classical.byContradiction fun hn => hj fun v hv => hn ⟨v, hv⟩
    have h1 := hK n v old e new ((unmarshals_loose hv).1 hu)
    have h2 := Nat.mul_le_mul_left K (looseDocument_extent hv)
    rw [Nat.mul_left_comm, ← Nat.mul_assoc] at h2
    omega

end

/-! ### the hypotheses can be met -/

namespace Examples
open Sample

/-- `type Base struct { M map[string]int }` and
`type Node struct { Base; *More; A *Node; L []Node; S string; X int }` with the tags `json:"a"`, `json:"l"`,
`json:"s" default:"x"` and `json:"-"`, and `type More struct { B [4]byte; X int }`, the latter with `json:"-"` -/
def nodeEnv : Env where
  decl
    | 0 => some (.struct false [⟨.named 1, { jsonName := [] }⟩, ⟨.star (.named 2), { jsonName := [] }⟩, ⟨.star (.named 0), { jsonName := str "a" }⟩,
        ⟨.slice (.named 0), { jsonName := str "l" }⟩, ⟨.prim .string, { jsonName := str "s", dflt := str "x" }⟩,
        ⟨.prim .int, { jsonName := str "-" }⟩])
    | 1 => some (.struct false [⟨.map (.prim .int), { jsonName := str "m" }⟩])
    | 2 => some (.struct false [⟨.array 4 (.prim .byte), { jsonName := str "b" }⟩, ⟨.prim .int, { jsonName := str "-" }⟩])
    | _ => none
  ext _ := .unsupp

theorem nodeEnv_read1 {key : Str} (h : KeyRead nodeEnv 1 key) : key = str "m" := by
  cases h with
  | own hd hf => cases hd; simp at hf; subst hf; rfl
  | embedded hd hf hn => cases hd; simp at hf; subst hf; cases hn

theorem nodeEnv_read2 {key : Str} (h : KeyRead nodeEnv 2 key) : key = str "b" := by
  cases h with
  | own hd hf hn hs =>
    cases hd
    simp at hf
    rcases hf with rfl | rfl
    · rfl
    · exact absurd rfl hs
  | embedded hd hf hn => cases hd; simp at hf; rcases hf with rfl | rfl <;> cases hn

theorem nodeEnv_key : ∀ {i : Nat} {fd : FieldDecl} {key : Str},
    ([⟨.named 1, { jsonName := [] }⟩, ⟨.star (.named 2), { jsonName := [] }⟩, ⟨.star (.named 0), { jsonName := str "a" }⟩,
        ⟨.slice (.named 0), { jsonName := str "l" }⟩, ⟨.prim .string, { jsonName := str "s", dflt := str "x" }⟩,
        ⟨.prim .int, { jsonName := str "-" }⟩] : List FieldDecl)[i]? = some fd → KeyOf nodeEnv fd key →
    [str "m", str "b", str "a", str "l", str "s"][i]? = some key
  | 0, fd, key, h, hk => by
    cases h
    rcases hk with ⟨h, _⟩ | ⟨_, m, hm, hk⟩
    · exact absurd rfl h
    · cases hm; rw [nodeEnv_read1 hk]; rfl
  | 1, fd, key, h, hk => by
    cases h
    rcases hk with ⟨h, _⟩ | ⟨_, m, hm, hk⟩
    · exact absurd rfl h
    · cases hm; rw [nodeEnv_read2 hk]; rfl
  | 2, fd, key, h, hk => by
    cases h
    rcases hk with ⟨_, _, rfl⟩ | ⟨h, _⟩
    · rfl
    · cases h
  | 3, fd, key, h, hk => by
    cases h
    rcases hk with ⟨_, _, rfl⟩ | ⟨h, _⟩
    · rfl
    · cases h
  | 4, fd, key, h, hk => by
    cases h
    rcases hk with ⟨_, _, rfl⟩ | ⟨h, _⟩
    · rfl
    · cases h
  | 5, fd, key, h, hk => by
    cases h
    rcases hk with ⟨_, h, _⟩ | ⟨h, _⟩
    · exact absurd rfl h
    · cases h
  | i + 6, fd, key, h, hk => by simp at h

theorem nodeEnv_once : ReadOnce nodeEnv where
  finite := ⟨[0, 1, 2], fun n d h => by
    match n, h with
    | 0, _ => simp
    | 1, _ => simp
    | 2, _ => simp
    | n + 3, h => cases h⟩
  embeds n strict fields fd hd hf hn := by
    match n, hd with
    | 0, hd =>
      cases hd
      simp at hf
      rcases hf with rfl | rfl | rfl | rfl | rfl | rfl
      · exact ⟨1, _, _, rfl, rfl⟩
      · exact ⟨2, _, _, rfl, rfl⟩
      all_goals cases hn
    | 1, hd => cases hd; simp at hf; subst hf; cases hn
    | 2, hd => cases hd; simp at hf; rcases hf with rfl | rfl <;> cases hn
    | n + 3, hd => cases hd
  acyclic := ⟨fun n => if n = 0 then 1 else 0, fun n strict fields fd m hd hf hn hm => by
    match n, hd with
    | 0, hd =>
      cases hd
      simp at hf
      rcases hf with rfl | rfl | rfl | rfl | rfl | rfl
      · cases hm; decide
      · cases hm; decide
      all_goals cases hn
    | 1, hd => cases hd; simp at hf; subst hf; cases hn
    | 2, hd => cases hd; simp at hf; rcases hf with rfl | rfl <;> cases hn
    | n + 3, hd => cases hd⟩
  distinct n strict fields i j fd fd' key hd hi hj hk hk' := by
    match n, hd with
    | 0, hd =>
      cases hd
      have h1 := nodeEnv_key hi hk
      have h2 := nodeEnv_key hj hk'
      have hnd : [str "m", str "b", str "a", str "l", str "s"].Nodup := by decide
      have hli := (List.getElem?_eq_some_iff.1 h1).1
      exact (List.getElem?_inj hli hnd).1 (h1.trans h2.symm)
    | 1, hd => cases hd; cases i <;> cases j <;> simp_all
    | 2, hd =>
      cases hd
      have dash : ∀ {fd : FieldDecl}, fd = ⟨.prim .int, { jsonName := str "-" }⟩ → ¬ KeyOf nodeEnv fd key := by
        rintro fd rfl (⟨_, h, _⟩ | ⟨h, _⟩)
        · exact h rfl
        · cases h
      match i, j with
      | 0, 0 => rfl
      | 1, _ => cases hi; exact absurd hk (dash rfl)
      | _, 1 => cases hj; exact absurd hk' (dash rfl)
      | i + 2, _ => cases hi
      | _, j + 2 => cases hj
    | n + 3, hd => cases hd
  foreign := ⟨0, fun n _ => ⟨fun _ h => (nomatch h), fun _ _ h => (nomatch h), fun _ _ _ _ h => (nomatch h)⟩⟩

section
attribute [local instance] Sample.ext

def nodeDoc : JV := .obj [(str "m", .obj [(str "k", .num (str "7"))]), (str "l", .arr [.obj [], .obj [(str "a", .obj [])]])]
def nodeZero : GoVal := .struct [.struct [.nil], .nil, .nil, .nil, .str [], .int 0]

set_option maxRecDepth 200000 in
/-- a document and what it is decoded to -/
theorem nodeEnv_decodes : ∃ new, Fills nodeEnv 0 nodeDoc nodeZero none new ∧ new.extent = 67 ∧ nodeDoc.extent = 16 ∧ nodeZero.extent = 8 :=
  ⟨_, ⟨8, rfl⟩, by decide +kernel, by decide +kernel, by decide +kernel⟩

end

/-! ## the property is false in general -/

/-- `type Twins struct { A, B *Twins }`, declared together with the tag `json:"x"` -/
def twinsEnv : Env where
  decl
    | 0 => some (.struct false [⟨.star (.named 0), { jsonName := str "x" }⟩, ⟨.star (.named 0), { jsonName := str "x" }⟩])
    | _ => none
  ext _ := .unsupp

/-- this is how the generator sees it -/
example : fieldDecls (fun _ _ => .no) (fun _ => false) [⟨[str "A", str "B"], .star (.ident (str "Twins")), some (str "`json:\"x\"`")⟩]
    = .ok [⟨.star (.named (identId (str "Twins"))), { jsonName := str "x" }⟩, ⟨.star (.named (identId (str "Twins"))), { jsonName := str "x" }⟩] := by
  decide +kernel

/-- `{"x":{"x":…{}…}}` -/
def chain : Nat → JV
  | 0 => .obj []
  | d + 1 => .obj [(str "x", chain d)]

def chainText : Nat → Str
  | 0 => str "{}"
  | d + 1 => str "{\"x\":" ++ chainText d ++ str "}"

/-- both fields of every struct point to structs of their own -/
def fullTree : Nat → GoVal
  | 0 => .struct [.nil, .nil]
  | d + 1 => .struct [.ptr (fullTree d), .ptr (fullTree d)]

theorem chain_extent : ∀ d, (chain d).extent = 3 * d + 1
  | 0 => rfl
  | d + 1 => by
    have h : (str "x").length = 1 := rfl
    simp only [chain, JV.extent, memberExtents, chain_extent d, h]; omega

theorem chainText_length : ∀ d, (chainText d).length = 6 * d + 2
  | 0 => rfl
  | d + 1 => by
    have h : (str "{\"x\":").length = 5 := rfl
    have h' : (str "}").length = 1 := rfl
    simp only [chainText, List.length_append, chainText_length d, h, h']; omega

theorem fullTree_extent : ∀ d, 2 ^ d ≤ (fullTree d).extent
  | 0 => by decide
  | d + 1 => by
    have := fullTree_extent d
    simp only [fullTree, GoVal.extent, extents, Nat.pow_succ]
    omega

theorem chain_json : ∀ d, Json (chain d) (chainText d)
  | 0 => .obj0 (ws := []) ws_nil
  | d + 1 => by
    have h : chainText (d + 1) = '{' :: (joinComma ([⟨[], str "x", [], [], chainText d, []⟩].map MemberText.text) ++ ['}']) := by
      show str "{\"x\":" ++ chainText d ++ str "}" = '{' :: (([] : Str) ++ '"' :: (str "x" ++ '"' :: ([] ++ ':' :: ([] ++ (chainText d ++ [])))) ++ ['}'])
      rw [List.append_nil]
      rfl
    rw [h, chain]
    refine .obj (by simp) rfl ?_ ?_ ?_
    · intro p hp
      simp at hp; subst hp
      exact ⟨ws_nil, ws_nil, ws_nil, ws_nil⟩
    · intro i kv p h1 h2
      cases i with
      | zero => cases h1; cases h2; exact strText_plain (s := str "x") (plainb_iff (by decide))
      | succ i => simp at h1
    · intro i kv p h1 h2
      cases i with
      | zero => cases h1; cases h2; exact chain_json d
      | succ i => simp at h1

theorem chain_depth : ∀ d, DepthLe (d + 1) (chain d)
  | 0 => .obj (by simp)
  | d + 1 => .obj (by simp; exact chain_depth d)

theorem depthLe_mono' {a : Nat} {v : JV} (h : DepthLe a v) : ∀ {b : Nat}, a ≤ b → DepthLe b v := by
  induction h with
  | null => intro b hb; obtain ⟨b, rfl⟩ : ∃ c, b = c + 1 := ⟨b - 1, by omega⟩; exact .null _
  | bool => intro b hb; obtain ⟨b, rfl⟩ : ∃ c, b = c + 1 := ⟨b - 1, by omega⟩; exact .bool _ _
  | num => intro b hb; obtain ⟨b, rfl⟩ : ∃ c, b = c + 1 := ⟨b - 1, by omega⟩; exact .num _ _
  | str => intro b hb; obtain ⟨b, rfl⟩ : ∃ c, b = c + 1 := ⟨b - 1, by omega⟩; exact .str _ _
  | arr _ ih => intro b hb; obtain ⟨b, rfl⟩ : ∃ c, b = c + 1 := ⟨b - 1, by omega⟩; exact .arr fun v hv => ih v hv (by omega)
  | obj _ ih => intro b hb; obtain ⟨b, rfl⟩ : ∃ c, b = c + 1 := ⟨b - 1, by omega⟩; exact .obj fun v hv => ih v hv (by omega)

section
variable [Ext]

theorem twins_gen (k : Nat) : genFields twinsEnv (k + 1) [⟨.star (.named 0), { jsonName := str "x" }⟩, ⟨.star (.named 0), { jsonName := str "x" }⟩]
    = .ok [some ⟨str "x", true, .nestedFresh (.named 0), true, none, .ref (.named 0), .nothing⟩,
           some ⟨str "x", true, .nestedFresh (.named 0), true, none, .ref (.named 0), .nothing⟩] := rfl

theorem twins_zero (k : Nat) : (twinsEnv.methods (k + 1) 0).zero = .ok (fullTree 0) := rfl
theorem twins_conv (k : Nat) (v : GoVal) : (twinsEnv.methods (k + 1) 0).conv v = .ok v := rfl

theorem twins_fill : ∀ d, (twinsEnv.methods (d + 2) 0).fill (chain d) (fullTree 0) = .ok (none, fullTree d)
  | 0 => rfl
  | d + 1 => by
    have ih := twins_fill d
    have hn : (chain d).isNull = false := by cases d <;> rfl
    rw [methods_struct (strict := false) rfl, twins_gen]
    have hv : ∀ names, validate (jsonNames names) false (chain (d + 1)) = none := by
      intro names
      simp only [validate, chain, JV.getObj, validateLoop]
      split
      · rename_i c cs hb
        have : ∀ (ns : List Str) c cs, bump (str "x") ns (ns.map fun _ => 0) = some (c, cs) → c = 1 := by
          intro ns
          induction ns with
          | nil => intro c cs h; simp [bump] at h
          | cons n ns ih =>
            intro c cs h
            simp only [List.map_cons, bump] at h
            split at h
            · simp at h; exact h.1.symm
            · simp only [Option.map_eq_some_iff, Prod.mk.injEq] at h
              obtain ⟨⟨a, b⟩, h1, h2, _⟩ := h
              rw [← h2]; exact ih a b h1
        rw [this _ c cs hb]
        simp
      · simp
    have hf : runField (twinsEnv.methods (d + 2)) ⟨str "x", true, .nestedFresh (.named 0), true, none, .ref (.named 0), .nothing⟩ (chain (d + 1)) .nil
        = .ok (none, .ptr (fullTree d)) := by
      have hg : (chain (d + 1)).get (str "x") = some (chain d) := rfl
      simp only [runField, show str "x" ≠ [] by decide, if_false, hg, hn, Bool.and_false, Bool.false_eq_true, runExtr, zeroT, fillT, twins_zero, ih,
        Out.ok_bind, Out.pure_eq, Option.bind_none, storeField, convT, twins_conv]
    simp only [Out.ok_bind, fullTree, runFill, hv, runFields, hf, Out.pure_eq]

/-- **C73 fails in general**: when two fields have one JSON name and the type is recursive, a document of
`3 d + 1` values, members and characters decodes to a value of more than `2 ^ d`. -/
theorem C73_doubles (d : Nat) : ∃ new, Fills twinsEnv 0 (chain d) (.struct [.nil, .nil]) none new ∧ (chain d).extent = 3 * d + 1 ∧ 2 ^ d ≤ new.extent :=
  ⟨_, ⟨_, twins_fill d⟩, chain_extent d, fullTree_extent d⟩

/-- … so no number will do for this type … -/
theorem C73_no_bound : ¬ ∃ K, ∀ n doc old e new, Fills twinsEnv n doc old e new → new.extent ≤ old.extent + K * doc.extent := by
  rintro ⟨K, hK⟩
  obtain ⟨new, h1, h2, h3⟩ := C73_doubles (2 * (6 * K + 3))
  have h4 := hK 0 _ _ _ _ h1
  rw [h2] at h4
  have h5 : (GoVal.struct [.nil, .nil]).extent = 3 := rfl
  rw [h5] at h4
  have h6 : 6 * K + 4 ≤ 2 ^ (6 * K + 3) := Nat.lt_pow_self (by decide)
  have h7 : (6 * K + 4) * (6 * K + 4) ≤ 2 ^ (2 * (6 * K + 3)) := by
    rw [Nat.two_mul, Nat.pow_add]
    exact Nat.mul_le_mul h6 h6
  have h8 : 3 + K * (3 * (2 * (6 * K + 3)) + 1) < (6 * K + 4) * (6 * K + 4) := by
    simp only [Nat.mul_add, Nat.add_mul, Nat.mul_one]
    have : K * (3 * (2 * (6 * K))) = 36 * (K * K) := by
      rw [show 3 * (2 * (6 * K)) = 36 * K by omega, Nat.mul_left_comm]
    have : 6 * K * (6 * K) = 36 * (K * K) := by
      rw [Nat.mul_mul_mul_comm]
    omega
  omega

/-- … and a text of 1796 characters decodes to a value of more than `2 ^ 299`. -/
theorem C73_text_doubles : ∃ data new, data.length = 1796 ∧ Unmarshals twinsEnv 0 data (.struct [.nil, .nil]) none new ∧ 2 ^ 299 ≤ new.extent := by
  refine ⟨chainText 299, fullTree 299, chainText_length 299, ?_, fullTree_extent 299⟩
  rw [unmarshals_document ⟨[], _, [], by simp, ws_nil, ws_nil, chain_json 299⟩ (chain_depth 299)]
  exact ⟨_, twins_fill 299⟩

end
end Examples

end VJ
