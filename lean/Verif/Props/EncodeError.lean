import Verif.Proof.EncodeError
import Verif.Props.EncodeTotal

/-!
# C71: when an encoding fails, and what the error says

`Spec/EncodeError.lean` says where in a value there is a time without a text, and how the way
there is called.
-/

namespace VJ
set_option linter.unusedSectionVars false

section
variable [Ext] {Γ : Env} {X : Nat → GoVal → Prop} {S : Nat → Prop}

theorem marshal_tell (hP : QuietPackage Γ S) {n : Nat} (hn : S n) {v : GoVal} {e : Option EErr} {w w' : W} (h : MarshalsTo Γ n (some v) w e w') :
    Tells (Unwritable Γ (.decl n) v) w (e, w') := by
  obtain ⟨k, h⟩ := h
  exact (level hP k).val n v w _ hn h

/-- **`MarshalJSON` fails exactly when there is a time without text in what it has to write.** -/
theorem C71_fails_exactly (hP : QuietPackage Γ S) {n : Nat} (hn : S n) {v : GoVal} {r : Except EErr Str} (h : Marshals Γ n (some v) r) :
    (∃ e, r = .error e) ↔ ∃ pos names emb, Unwritable Γ (.decl n) v pos names emb := by
  obtain ⟨e, w, h, hr⟩ := marshals_iff.1 h
  rcases (marshal_tell hP hn h).tells rfl with ⟨h1, h2, h3⟩ | ⟨pos, p, b, h1, h2, h3, h4⟩
  · simp only at h2 h3
    subst h2
    simp only [W.build, h3] at hr
    subst hr
    constructor
    · rintro ⟨e, h⟩; cases h
    · rintro ⟨pos, p, b, h⟩; exact absurd h (h1 _ _ _)
  · refine ⟨fun _ => ⟨_, _, _, h1⟩, fun _ => ?_⟩
    cases e with
    | some x => exact ⟨x, hr⟩
    | none =>
      rcases h3 with h3 | h3
      · exact absurd rfl h3
      · cases he : w.err with
        | none => exact absurd he h3
        | some x => simp only [W.build, he] at hr; exact ⟨x, hr⟩

/-- **`MarshalTo` fails exactly then, too**: onto a writer that has not failed before, it returns an
error or leaves one in the writer exactly when there is a time without text. -/
theorem C71_append_fails_exactly (hP : QuietPackage Γ S) {n : Nat} (hn : S n) {v : GoVal} {e : Option EErr} {w w' : W} (hw : w.err = none)
    (h : MarshalsTo Γ n (some v) w e w') : (e ≠ none ∨ w'.err ≠ none) ↔ ∃ pos names emb, Unwritable Γ (.decl n) v pos names emb := by
  rcases (marshal_tell hP hn h).tells hw with ⟨h1, h2, h3⟩ | ⟨pos, p, b, h1, h2, h3, h4⟩
  · simp only at h2 h3
    constructor
    · rintro (h | h)
      · exact absurd h2 h
      · exact absurd h3 h
    · rintro ⟨pos, p, b, h⟩; exact absurd h (h1 _ _ _)
  · exact ⟨fun _ => ⟨_, _, _, h1⟩, fun _ => h3⟩

/-- **The error names the first place that cannot be written**: the way to the first time without
text, field by field and item by item, in the order of the document. Missing from the full
statement: first places inside an embedded struct; the error may then name another
place (`C71_wrong_place`). -/
theorem C71_names_first_partial (hP : QuietPackage Γ S) {n : Nat} (hn : S n) {v : GoVal} {err : EErr} (h : Marshals Γ n (some v) (.error err)) :
    ∃ pos names emb, Unwritable Γ (.decl n) v pos names emb ∧ (∀ pos' names' emb', Unwritable Γ (.decl n) v pos' names' emb' → ¬ pos' < pos) ∧
      (emb = false → err.ctx = names ∧ err.code = codeTimeText) := by
  obtain ⟨e, w, h, hr⟩ := marshals_iff.1 h
  rcases (marshal_tell hP hn h).tells rfl with ⟨h1, h2, h3⟩ | ⟨pos, p, b, h1, h2, h3, h4⟩
  · simp only at h2 h3
    subst h2
    simp [W.build, h3] at hr
  · refine ⟨pos, p, b, h1, h2, fun hb => ?_⟩
    have := h4 hb
    simp only at this
    subst this
    cases hr
    exact ⟨rfl, rfl⟩

/-- **A place has one name**, so the error tells which one it is. -/
theorem C71_one_name {pl : Place} {v : GoVal} {pos : List Nat} {names names' : List ECtx} {emb emb' : Bool}
    (h : Unwritable Γ pl v pos names emb) (h' : Unwritable Γ pl v pos names' emb') : names = names' ∧ emb = emb' := unwritable_unique h h'

/-- **Exactly the values without such a time have a JSON text**: for a value of the type with no nil
UUID pointer to be written, `MarshalJSON` succeeds if and only if every time it has to write has a text. -/
theorem C71_succeeds_exactly (hE : EncoderSet Γ X S) (hP : QuietPackage Γ S) {n : Nat} (hn : S n) {v : GoVal} (hv : HasType Γ X (.named n) v)
    (hu : NoNilUUID Γ (.named n) v) : (∃ s, Marshals Γ n (some v) (.ok s)) ↔ ¬ ∃ pos names emb, Unwritable Γ (.decl n) v pos names emb := by
  constructor
  · rintro ⟨s, hs⟩ hU
    obtain ⟨e, he⟩ := (C71_fails_exactly hP hn hs).2 hU
    cases he
  · intro hU
    obtain ⟨r, hr⟩ := C46_encode_returns_partial hE hn hv hu
    cases r with
    | ok s => exact ⟨s, hr⟩
    | error e => exact absurd ((C71_fails_exactly hP hn hr).1 ⟨e, rfl⟩) hU

end

namespace TimeSample
open Sample Examples

/-- times before 1970 have no text -/
@[instance_reducible] def ext : Ext := { Sample.ext with timeText := fun t => if t.ns < 0 then none else some ('T' :: intStr t.ns) }
attribute [local instance] TimeSample.ext

/-- type MyTime time.Time; type Base struct { Times []*MyTime `json:"times"` };
type Other struct { Name string `json:"name"` };
type Doc struct { Base; Other Other `json:"other"` };
type Log struct { Title string `json:"title"`; Items []Base `json:"items"`; ByDay map[string]*Base `json:"byDay"` } -/
def Γ : Env where
  decl
    | 0 => some (.alias .time)
    | 1 => some (.struct false [⟨.slice (.star (.named 0)), tag "times"⟩])
    | 2 => some (.struct false [⟨.prim .string, tag "name"⟩])
    | 3 => some (.struct false [⟨.named 1, {}⟩, ⟨.named 2, tag "other"⟩])
    | 4 => some (.struct false [⟨.prim .string, tag "title"⟩, ⟨.slice (.named 1), tag "items"⟩, ⟨.map (.star (.named 1)), tag "byDay"⟩])
    | _ => none
  ext _ := .unsupp

def names : List Nat := [0, 1, 2, 3, 4]

theorem declared {n : Nat} (hn : n ∈ names) : Γ.decl n ≠ none := by
  have h : ∀ n ∈ names, Γ.decl n ≠ none := by decide
  exact h n hn

theorem set : TypeSet Γ (· ∈ names) where
  closed n d t m hn hd ht hm := by
    have h : ∀ n ∈ names, ∀ d ∈ Γ.decl n, ∀ t ∈ d.types, ∀ m ∈ t.names, m ∈ names := by decide
    exact h n hn d hd t ht m hm
  noAnon n d t hn hd ht := by
    have h : ∀ n ∈ names, ∀ d ∈ Γ.decl n, ∀ t ∈ d.types, t.anon = false := by decide
    exact h n hn d hd t ht
  sels n d t m hn hd ht hm := by
    have h : ∀ n ∈ names, ∀ d ∈ Γ.decl n, ∀ t ∈ d.types, t.sels = [] := by decide
    rw [h n hn d hd t ht] at hm; cases hm

theorem quiet : QuietPackage Γ (· ∈ names) where
  toTypeSet := set
  tame n r hd := .unsupp
  quiet n r w e w' hd hw h := by cases h
  embeds n strict fields fd m hn hd hf hj hm := declared (hm.inS set (set.field hn hd hf))

def good : GoVal := .ptr (.time ⟨5, 0⟩)
def bad : GoVal := .ptr (.time ⟨-5, 0⟩)
def base (ts : List GoVal) : GoVal := .struct [.slice ts []]
def logVal : GoVal := .struct [.str (str "t"), .slice [base [good], base [good, bad, good]] [], .map [(str "mo", .ptr (base [bad]))]]

def logErr : EErr := ⟨[.item (str "items") 1, .item (str "times") 1], codeTimeText⟩

set_option maxRecDepth 200000 in
theorem log_fails : Marshals Γ 4 (some logVal) (.error logErr) := ⟨5, rfl⟩

theorem base_bad {ts : List GoVal} {i : Nat} (h : ts[i]? = some bad) : Unwritable Γ (.decl 1) (base ts) [0, i] [atItem (str "times") i] false := by
  refine .struct (i := 0) (fd := ⟨.slice (.star (.named 0)), tag "times"⟩) rfl rfl rfl (not_omitted (.slice (.self _) (by simp)) fun h => by cases h) ?_
  refine .listField (.slice (.self _) (by simp)) (.slice _ _) h ?_
  exact .ptr (.named 0) (fun p h => by cases h with | named hd => cases hd) (.time rfl rfl)

theorem log_bad : Unwritable Γ (.decl 4) logVal [1, 1, 0, 1] [.item (str "items") 1, .item (str "times") 1] false := by
  refine .struct (i := 1) (fd := ⟨.slice (.named 1), tag "items"⟩) rfl rfl rfl (not_omitted (.slice (.self _) (by simp)) fun h => by cases h) ?_
  refine .listField (i := 1) (.slice (.self _) (by simp)) (.slice _ _) rfl ?_
  exact .name (.named 1) (fun p h => by cases h with | named hd => cases hd)
    (fun _ e h => by obtain ⟨_, h | ⟨_, h⟩⟩ := h <;> cases h with | named hd => cases hd) (base_bad rfl)

/-- the value above cannot be encoded, and the error names its first such time: `items[1]`, `times[1]` -/
example : (∃ e, Marshals Γ 4 (some logVal) (.error e)) ∧ ∃ pos names emb, Unwritable Γ (.decl 4) logVal pos names emb :=
  ⟨⟨_, log_fails⟩, (C71_fails_exactly quiet (by decide) log_fails).1 ⟨_, rfl⟩⟩

example : ∃ pos p b, Unwritable Γ (.decl 4) logVal pos p b ∧ (∀ pos' p' b', Unwritable Γ (.decl 4) logVal pos' p' b' → ¬ pos' < pos) ∧
    (b = false → logErr.ctx = p ∧ logErr.code = codeTimeText) := C71_names_first_partial quiet (by decide) log_fails

/-- a value without such a time has a text -/
def fineVal : GoVal := .struct [.str (str "t"), .slice [base [good], base [good, good]] [], .map [(str "mo", .ptr (base [good]))]]

set_option maxRecDepth 200000 in
theorem fine_succeeds : ∃ s, Marshals Γ 4 (some fineVal) (.ok s) := ⟨_, 5, rfl⟩

example : ¬ ∃ pos p b, Unwritable Γ (.decl 4) fineVal pos p b := by
  obtain ⟨s, hs⟩ := fine_succeeds
  intro h
  obtain ⟨e, he⟩ := (C71_fails_exactly quiet (by decide) hs).2 h
  cases he

theorem encoders : EncoderSet Γ NoForeign (· ∈ names) where
  toTypeSet := set
  encoders n hn hd := by
    have h : ∀ n ∈ names, ∀ d ∈ Γ.decl n, isOk (genMarshal Γ d) = true := by decide
    cases hdn : Γ.decl n with
    | none => exact absurd hdn hd
    | some d =>
      have := h n hn d hdn
      cases hg : genMarshal Γ d with
      | ok ir => exact ⟨d, ir, hdn, hg⟩
      | _ => rw [hg] at this; cases this
  zeros n d hn hd := by
    have h : ∀ n ∈ names, ∀ d ∈ Γ.decl n, isOk (genZero Γ 5 d) = true := by decide
    have := h n hn d hd
    cases hg : genZero Γ 5 d with
    | ok ir => exact ⟨5, ir, hg⟩
    | _ => rw [hg] at this; cases this
  foreign n v w hn hd hx := hx.elim
  foreignNil n w hn hd := absurd hd (declared hn)
  foreignZero n v hn hd hx := hx.elim

/-- the types of what is in a `Log` -/
def logTypes : List TExpr :=
  [.named 4, .prim .string, .slice (.named 1), .named 1, .map (.star (.named 1)), .star (.named 1), .slice (.star (.named 0)), .star (.named 0),
   .named 0, .time]

theorem log_parts {V : GoVal} {t : TExpr} {v : GoVal} (h : Part Γ (.named 4) V t v) : t ∈ logTypes := by
  have hd : ∀ t ∈ logTypes, ∀ n ∈ t.names, ∀ d ∈ Γ.decl n, ∀ u ∈ d.types, u ∈ logTypes := by decide
  induction h with
  | self => decide
  | ptr _ ih => simp [logTypes] at ih ⊢; rcases ih with h | h <;> simp [h]
  | slice _ hv ih => simp [logTypes] at ih ⊢; rcases ih with h | h <;> simp [h]
  | array _ hv ih => simp [logTypes] at ih
  | map _ hv ih => simp [logTypes] at ih ⊢; simp [ih]
  | «alias» _ he h ih =>
    cases he with
    | named n => exact hd _ ih _ (by simp [TExpr.names]) _ h _ (List.mem_singleton.2 rfl)
    | sel n => simp [logTypes] at ih
  | field _ he h hf hg ih =>
    cases he with
    | named n => exact hd _ ih _ (by simp [TExpr.names]) _ h _ (List.mem_map_of_mem (f := FieldDecl.typ) (List.mem_of_getElem? hf))
    | sel n => simp [logTypes] at ih

theorem fine_typed : HasType Γ NoForeign (.named 4) fineVal := by
  have ht : ∀ z : Int, HasType Γ NoForeign (.star (.named 0)) (.ptr (.time ⟨z, 0⟩)) := fun z => .ptr (.alias (.named 0) rfl (.time _))
  have hb : ∀ ts : List GoVal, (∀ t ∈ ts, HasType Γ NoForeign (.star (.named 0)) t) → HasType Γ NoForeign (.named 1) (base ts) := fun ts h =>
    typed_struct rfl (.cons (.slice (by simp) h (by simp)) .nil)
  refine typed_struct rfl (.cons (.prim (.string _)) (.cons (.slice (by simp) ?_ (by simp)) (.cons (.map (by simp) ?_) .nil)))
  · intro v hv
    simp only [List.mem_cons, List.not_mem_nil, or_false] at hv
    rcases hv with rfl | rfl <;> refine hb _ fun t h => ?_
    · simp at h; subst h; exact ht 5
    · simp at h; subst h; exact ht 5
  · intro kv hv
    simp only [List.mem_cons, List.not_mem_nil, or_false] at hv
    subst hv
    refine .ptr (hb _ fun t h => ?_)
    simp at h; subst h; exact ht 5

/-- its text and the absence of such times say the same -/
example : (∃ s, Marshals Γ 4 (some fineVal) (.ok s)) ↔ ¬ ∃ pos p b, Unwritable Γ (.decl 4) fineVal pos p b :=
  C71_succeeds_exactly encoders quiet (by decide) fine_typed fun h => by simpa [logTypes] using log_parts h.toPart

def docVal : GoVal := .struct [base [bad], .struct [.str (str "x")]]

/-- **C71 fails inside an embedded struct**: the only time without text is in the list `times` of the
embedded struct; the error says it is in the field `other`. -/
def docErr : EErr := ⟨[.attr (str "other"), .item (str "times") 0], codeTimeText⟩

set_option maxRecDepth 200000 in
theorem C71_wrong_place : Marshals Γ 3 (some docVal) (.error docErr) ∧ Unwritable Γ (.decl 3) docVal [0, 0, 0] [.item (str "times") 0] true ∧
    ∀ pos p b, Unwritable Γ (.decl 3) docVal pos p b → pos.head? = some 0 := by
  refine ⟨⟨5, rfl⟩, ?_, ?_⟩
  · refine .struct (i := 0) (fd := ⟨.named 1, {}⟩) rfl rfl rfl ?_ (.embedded (.method (.struct rfl)) rfl (base_bad (i := 0) rfl))
    refine not_omitted (.method (.struct rfl)) fun h => ?_
    cases h with
    | method h => cases isZero_unique h ⟨5, rfl⟩
  · intro pos p b h
    have h1 : Γ.decl 3 = some (.struct false [⟨.named 1, {}⟩, ⟨.named 2, tag "other"⟩]) := rfl
    have h2 : Γ.decl 2 = some (.struct false [⟨.prim .string, tag "name"⟩]) := rfl
    have hk : FieldKind Γ (.named 2) (.method 2) := .method (.struct rfl)
    have hs : FieldKind Γ (.prim .string) .scalar := .scalar (.self _)
    unfold docVal at h
    cases h with
    | namedName hd => rw [h1] at hd; cases hd
    | namedList hd => rw [h1] at hd; cases hd
    | @struct _ i _ _ _ _ _ _ _ _ hd hf hg ho h =>
      rw [h1] at hd; cases hd
      match i, hf, hg with
      | 0, _, _ => rfl
      | 1, hf, hg =>
        cases hf; cases hg
        exfalso
        cases h with
        | field hk' _ h =>
          cases fieldKind_unique hk hk'
          cases h with
          | namedName hd => rw [h2] at hd; cases hd
          | namedList hd => rw [h2] at hd; cases hd
          | @struct _ i _ _ _ _ _ _ _ _ hd hf hg ho h =>
            rw [h2] at hd; cases hd
            match i, hf, hg with
            | 0, hf, hg =>
              cases hf; cases hg
              cases h with
              | field hk' | embedded hk' | listField hk' => cases fieldKind_unique hs hk'
            | i + 1, hf, _ => simp at hf
        | embedded hk' hn => cases hn
        | listField hk' => cases fieldKind_unique hk hk'
      | i + 2, hf, _ => simp at hf

end TimeSample

end VJ
