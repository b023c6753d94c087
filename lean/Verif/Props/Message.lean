import Verif.Props.Errors
import Verif.Props.EncodeError
import Verif.Proof.Speaks
import Verif.Spec.Message

/-!
# C78, C79: the messages of errors
-/

namespace VJ
set_option linter.unusedSectionVars false
attribute [local irreducible] msg

/-! ## reading a message -/

theorem pieces_plain {p : Str} (h : '.' ∉ p) : pieces p = [p] := by
  induction p with
  | nil => rfl
  | cons c cs ih =>
    simp only [List.mem_cons, not_or] at h
    simp [pieces, Ne.symm h.1, ih h.2]

theorem pieces_dot {p : Str} (h : '.' ∉ p) (q : Str) : pieces (p ++ '.' :: q) = p :: pieces q := by
  induction p with
  | nil => simp [pieces]
  | cons c cs ih =>
    simp only [List.mem_cons, not_or] at h
    simp [pieces, Ne.symm h.1, ih h.2]

theorem pieces_dotted : ∀ (p : Str) (ps : List Str), (∀ q ∈ p :: ps, '.' ∉ q) → pieces (dotted (p :: ps)) = p :: ps
  | p, [], h => pieces_plain (h p (by simp))
  | p, q :: ps, h => by
    simp only [dotted]
    rw [pieces_dot (h p (by simp)), pieces_dotted q ps fun x hx => h x (List.mem_cons_of_mem _ hx)]

theorem dotted_tellable : ∀ (ps : List Str), (∀ q ∈ ps, '\'' ∉ q) → '\'' ∉ dotted ps
  | [], _ => by simp [dotted]
  | [p], h => h p (by simp)
  | p :: q :: ps, h => by
    simp only [dotted, List.mem_append, List.mem_cons, not_or]
    exact ⟨h p (by simp), by decide, dotted_tellable (q :: ps) fun x hx => h x (List.mem_cons_of_mem _ hx)⟩

theorem takeWhile_apos {q : Str} (h : '\'' ∉ q) (rest : Str) : (q ++ '\'' :: rest).takeWhile (· != '\'') = q := by
  induction q with
  | nil => simp
  | cons c cs ih =>
    simp only [List.mem_cons, not_or] at h
    have hc : (c != '\'') = true := by simp [Ne.symm h.1]
    simp [hc, ih h.2]

theorem placeIn_path {q : Str} (h : '\'' ∉ q) (rest : Str) : placeIn (msg "error parsing '" ++ q ++ msg "': " ++ rest) = pieces q := by
  have hp : msg "error parsing '" <+: msg "error parsing '" ++ q ++ msg "': " ++ rest :=
    ⟨q ++ msg "': " ++ rest, by simp only [List.append_assoc]⟩
  rw [placeIn, if_pos hp, List.append_assoc, List.append_assoc, show (15 : Nat) = (msg "error parsing '").length from by decide +kernel, List.drop_left]
  rw [show msg "': " = '\'' :: msg ": " from by decide +kernel, List.cons_append]
  exact congrArg pieces (takeWhile_apos h (msg ": " ++ rest))

/-- a text that starts otherwise names no place -/
theorem placeIn_other {a : Str} (ha : a.length ≤ 15) (h : ¬ a <+: msg "error parsing '") (b : Str) :
    placeIn (a ++ b) = [] := by
  rw [placeIn, if_neg]
  intro hp
  exact h (List.prefix_of_prefix_length_le (List.prefix_append a b) hp (by
    rw [show (msg "error parsing '").length = 15 from by decide +kernel]; exact ha))

theorem digit_not_e {c : Char} (h : isDigit c = true) : c ≠ 'e' := by rintro rfl; revert h; decide

theorem intStr_head (z : Int) : ∃ c rest, intStr z = c :: rest ∧ c ≠ 'e' := by
  have hn : ∀ n, ∃ c rest, natStr n = c :: rest ∧ c ≠ 'e' := by
    intro n
    obtain ⟨_, h1, h2⟩ := natStr_spec n
    cases h : natStr n with
    | nil => exact absurd h h1
    | cons c rest => exact ⟨c, rest, rfl, digit_not_e (h2 c (by simp [h]))⟩
  cases z with
  | ofNat n => exact hn n
  | negSucc n => exact ⟨'-', _, rfl, by decide⟩

/-- the message of a cause does not name a place -/
theorem placeIn_cause {other : Cause → Str} (h : ∀ c, placeIn (other c) = []) (c : Cause) : placeIn (c.text other) = [] := by
  cases c with
  | required name =>
    simp only [Cause.text, List.append_assoc, show msg "required element '" = msg "req" ++ msg "uired element '" from by decide +kernel]
    exact placeIn_other (by decide +kernel) (by decide +kernel) _
  | twice key => simp only [Cause.text, List.append_assoc]; exact placeIn_other (by decide +kernel) (by decide +kernel) _
  | unexpected key =>
    simp only [Cause.text, List.append_assoc, show msg "unexpected field '" = msg "une" ++ msg "xpected field '" from by decide +kernel]
    exact placeIn_other (by decide +kernel) (by decide +kernel) _
  | incomplete => simp only [Cause.text]; decide +kernel
  | lenMismatch => simp only [Cause.text]; decide +kernel
  | wrongCount a b => simp only [Cause.text, List.append_assoc]; exact placeIn_other (by decide +kernel) (by decide +kernel) _
  | exceedsMax z =>
    obtain ⟨c, rest, h1, h2⟩ := intStr_head z
    simp only [Cause.text, h1, List.append_assoc]
    show placeIn ([c] ++ (rest ++ _)) = []
    refine placeIn_other (by simp) ?_ _
    rintro ⟨t, ht⟩
    rw [show msg "error parsing '" = 'e' :: msg "rror parsing '" from by decide +kernel] at ht
    injection ht with ht _
    exact h2 ht
  | _ => exact h _

section
variable [Ext] {Γ : Env} {S : Nat → Prop} {other : Cause → Str}

theorem digits_tellable {i : Nat} : Tellable (natStr i) := by
  have h := (natStr_spec i).2.2
  exact ⟨fun hm => absurd (h _ hm) (by decide), fun hm => absurd (h _ hm) (by decide)⟩

theorem docKey_get {v a : JV} {name key : Str} (h : v.get name = some a) (hk : DocKey key a) : DocKey key v := by
  obtain ⟨kvs, rfl, ⟨k, b⟩, hm, rfl⟩ := get_mem h
  exact .member hm hk

/-- the names on the way to a part of a document can be told -/
theorem leadsTo_tellable (hN : TellableNames Γ) {L : Str} {t : TExpr} {v : JV} {place : List Str} {L' : Str} {t' : TExpr} {v' : JV}
    (h : LeadsTo Γ L t v place L' t' v') (hk : ∀ key, DocKey key v → Tellable key) :
    (∀ p ∈ place, Tellable p) ∧ ∀ key, DocKey key v' → Tellable key := by
  induction h with
  | here => exact ⟨by simp, hk⟩
  | ptr _ ih => exact ih hk
  | name _ _ _ _ ih => exact ih hk
  | elem _ hi _ ih =>
    obtain ⟨h1, h2⟩ := ih fun key h => hk key (.elem (List.mem_of_getElem? hi) h)
    exact ⟨fun p hp => (List.mem_cons.1 hp).elim (fun e => e ▸ digits_tellable) (h1 p), h2⟩
  | entry _ hm _ ih =>
    obtain ⟨h1, h2⟩ := ih fun key h => hk key (.member hm h)
    exact ⟨fun p hp => (List.mem_cons.1 hp).elim (fun e => e ▸ hk _ (.here hm)) (h1 p), h2⟩
  | field _ hd hf _ _ hg _ ih =>
    obtain ⟨h1, h2⟩ := ih fun key h => hk key (docKey_get hg h)
    exact ⟨fun p hp => (List.mem_cons.1 hp).elim (fun e => e ▸ hN _ _ _ _ hd hf) (h1 p), h2⟩
  | embedded _ _ _ _ _ ih => exact ih hk

theorem wrong_tellable (hN : TellableNames Γ) (hO : PlainMessages Γ other) {L : Str} {t : TExpr} {v : JV} {tail : List Str} {c : Cause}
    (h : Wrong Γ L t v tail c) : ∀ p ∈ tail, Tellable p := by
  cases h with
  | required ht hd hf => intro p hp; simp only [List.mem_singleton] at hp; exact hp ▸ hN _ _ _ _ hd hf
  | twice ht hd hk =>
    intro p hp
    simp only [List.mem_singleton] at hp
    subst hp
    obtain ⟨fd, hf, rfl⟩ := List.mem_map.1 hk
    exact hN _ _ _ _ hd hf
  | foreign ht hd h =>
    obtain ⟨k, h⟩ := h
    cases k with
    | zero => cases h
    | succ k =>
      rw [methods_none hd] at h
      rw [hO.foreign _ _ _ _ _ hd h]
      simp
  | _ => simp

theorem placeIn_errorAt (h : ∀ c, placeIn (other c) = []) {place : List Str} (hp : ∀ p ∈ place, Tellable p) (c : Cause) :
    placeIn ((errorAt place c).text other) = place := by
  cases place with
  | nil => exact placeIn_cause h c
  | cons p ps =>
    simp only [errorAt, Err.text]
    rw [placeIn_path (dotted_tellable _ fun q hq => (hp q hq).2), pieces_dotted p ps fun q hq => (hp q hq).1]

/-- **C78, partial**: the place is in the message.  A decode fails; a reader takes from the message of the error the names
between the apostrophes.  They lead to a part of the document, or to a member of it, that is wrong for the cause of the error.
No names: the document itself is wrong.  (For types whose errors have the right path, see C17, and names and keys without
dots and apostrophes.) -/
theorem C78_place_partial (hT : TracedSet Γ S) (hN : TellableNames Γ) (hO : PlainMessages Γ other) {n : Nat} (hn : S n) {doc : JV}
    (hk : ∀ key, DocKey key doc → Tellable key) {old new : GoVal} {e : Err} (h : Fills Γ n doc old (some e) new) :
    ∃ place tail L t v, LeadsTo Γ [] (.named n) doc place L t v ∧ Wrong Γ L t v tail e.cause ∧ placeIn (e.text other) = place ++ tail := by
  obtain ⟨place, tail, L, t, v, c, h1, h2, rfl⟩ := C17_error_paths_partial hT hn h
  refine ⟨place, tail, L, t, v, h1, ?_, ?_⟩
  · cases place ++ tail <;> exact h2
  · refine placeIn_errorAt hO.other (fun p hp => ?_) c
    rcases List.mem_append.1 hp with hp | hp
    · exact (leadsTo_tellable hN h1 hk).1 p hp
    · exact wrong_tellable hN hO h2 p hp

/-- … and on text -/
theorem C78_place_text_partial (hT : TracedSet Γ S) (hN : TellableNames Γ) (hO : PlainMessages Γ other) {n : Nat} (hn : S n) {data : Str} {doc : JV}
    (hd : Document doc data) (hdep : DepthLe 300 doc) (hk : ∀ key, DocKey key doc → Tellable key) {old new : GoVal} {e : Err}
    (h : Unmarshals Γ n data old (some e) new) :
    ∃ place tail L t v, LeadsTo Γ [] (.named n) doc place L t v ∧ Wrong Γ L t v tail e.cause ∧ placeIn (e.text other) = place ++ tail :=
  C78_place_partial hT hN hO hn hk ((unmarshals_document hd hdep).1 h)

/-- **The messages for documents a struct does not take**, word for word. -/
theorem C78_rejected {n : Nat} {strict : Bool} {fields : List FieldDecl} (hd : Γ.decl n = some (.struct strict fields)) {kvs : List (Str × JV)}
    {s s' : GoVal} {e : Err} (hv : ¬ Acceptable (jsonNames fields) strict (.obj kvs)) (h : Fills Γ n (.obj kvs) s (some e) s') :
    (∃ key ∈ jsonNames fields, 2 ≤ occurrences key kvs ∧
      e.text other = msg "error parsing '" ++ key ++ msg "': the '" ++ key ++ msg "' field appears in the object twice") ∨
    (strict = true ∧ ∃ kv ∈ kvs, kv.1 ∉ jsonNames fields ∧ e.text other = msg "unexpected field '" ++ kv.1 ++ msg "'") := by
  obtain ⟨_, err, he, h⟩ := C01_rejected hd hv h
  cases he
  rcases h with ⟨h, _⟩ | ⟨kvs', hk, h⟩
  · exact absurd rfl (h kvs)
  · cases hk
    rcases h with ⟨key, h1, h2, rfl⟩ | ⟨h1, kv, h2, h3, rfl⟩
    · refine .inl ⟨key, h1, h2, ?_⟩
      simp only [Err.text, Cause.text, show msg "': the '" = msg "': " ++ msg "the '" from by decide +kernel, List.append_assoc]
    · exact .inr ⟨h1, kv, h2, h3, rfl⟩

/-- **The message for a required member that is missing.** -/
theorem C78_required {m : Nat} {fd : FieldDecl} (hm : SingleField Γ m fd) {v : JV}
    (hv : Acceptable (jsonNames [fd]) false v) (hname : fd.tags.jsonName ≠ []) (hdash : fd.tags.jsonName ≠ str "-")
    (habs : v.get fd.tags.jsonName = none) (hdef : fd.tags.dflt = []) (hreq : fd.tags.required = true)
    {s s' : GoVal} {e : Err} (h : Fills Γ m v s (some e) s') :
    e.text other = msg "error parsing '" ++ fd.tags.jsonName ++ msg "': required element '" ++ fd.tags.jsonName ++ msg "' is missing" := by
  obtain ⟨he, _⟩ := C06_required_error hm hv hname hdash habs hdef hreq h
  cases he
  simp only [Err.text, Cause.text, show msg "': required element '" = msg "': " ++ msg "required element '" from by decide +kernel, List.append_assoc]

end

/-! ## C79: errors of encoding -/

theorem fmtPieces_text {c : Char} (h : c ≠ '%') (cs : Str) : fmtPieces (c :: cs) = (fmtPieces cs).map (.text c :: ·) := by
  rw [fmtPieces]
  all_goals simp_all

theorem fmtPieces_plain : ∀ {a : Str}, '%' ∉ a → ∀ b, fmtPieces (a ++ b) = (fmtPieces b).map (a.map .text ++ ·)
  | [], _, b => by simp
  | c :: cs, h, b => by
    simp only [List.mem_cons, not_or] at h
    rw [List.cons_append, fmtPieces_text (Ne.symm h.1), fmtPieces_plain h.2, Option.map_map]
    rfl

theorem fmtRun_text (sh : Char → Option FmtArg → Str) (as : List FmtArg) (ps : List FmtPiece) : ∀ a : Str,
    fmtRun sh (a.map .text ++ ps) as = (a ++ (fmtRun sh ps as).1, (fmtRun sh ps as).2)
  | [] => rfl
  | c :: cs => by simp only [List.map_cons, List.cons_append, fmtRun, fmtRun_text sh as ps cs]

theorem errorf_one {pre suf t : Str} (hp : '%' ∉ pre) (hs : fmtPieces suf = some (t.map .text ++ [.verb 'w'])) (sh : Char → Option FmtArg → Str)
    (e : GoErr) : errorf sh (pre ++ suf) [.err e] = some (.made (pre ++ t ++ e.text) (some e)) := by
  simp [errorf, fmtPieces_plain hp, hs, fmtRun_text, fmtRun]

theorem errorf_index {pre suf t t' : Str} (hp : '%' ∉ pre) (hs : fmtPieces suf = some (t.map .text ++ .verb 'd' :: (t'.map .text ++ [.verb 'w'])))
    (sh : Char → Option FmtArg → Str) (i : Nat) (e : GoErr) :
    errorf sh (pre ++ suf) [.index i, .err e] = some (.made (pre ++ t ++ natStr i ++ t' ++ e.text) (some e)) := by
  simp [errorf, fmtPieces_plain hp, hs, fmtRun_text, fmtRun]

theorem errorf_key {pre suf t t' : Str} (hp : '%' ∉ pre) (hs : fmtPieces suf = some (t.map .text ++ .verb 'q' :: (t'.map .text ++ [.verb 'w'])))
    (sh : Char → Option FmtArg → Str) (k : Str) (e : GoErr) :
    errorf sh (pre ++ suf) [.key k, .err e] = some (.made (pre ++ t ++ sh 'q' (some (.key k)) ++ t' ++ e.text) (some e)) := by
  simp [errorf, fmtPieces_plain hp, hs, fmtRun_text, fmtRun]

theorem head_plain {name : Str} (h : '%' ∉ name) : '%' ∉ msg "can't marshal \"" ++ name := by
  rw [List.mem_append]
  rintro (h' | h')
  · exact absurd h' (by decide +kernel)
  · exact h h'

/-- one call of `fmt.Errorf`, with a name without percent signs -/
theorem errorf_says (sh : Char → Option FmtArg → Str) {c : ECtx} {typ : Str} (hc : '%' ∉ c.name) (ht : '%' ∉ typ) (e : GoErr) :
    c.errorf sh typ e = some (.made (c.says (fun k => sh 'q' (some (.key k))) typ ++ e.text) (some e)) := by
  have h1 : fmtPieces (msg "\" attribute: %w") = some ((msg "\" attribute: ").map .text ++ [.verb 'w']) := by decide +kernel
  have h2 : fmtPieces (msg "\" value at position %d: %w") =
    some ((msg "\" value at position ").map .text ++ .verb 'd' :: ((msg ": ").map .text ++ [.verb 'w'])) := by decide +kernel
  have h3 : fmtPieces (msg "\" item at position %d: %w") =
    some ((msg "\" item at position ").map .text ++ .verb 'd' :: ((msg ": ").map .text ++ [.verb 'w'])) := by decide +kernel
  have h4 : fmtPieces (msg "\" attribute %q: %w") =
    some ((msg "\" attribute ").map .text ++ .verb 'q' :: ((msg ": ").map .text ++ [.verb 'w'])) := by decide +kernel
  cases c with
  | attr name =>
    replace hc : '%' ∉ name := hc
    exact errorf_one (head_plain hc) h1 sh e
  | item name i =>
    replace hc : '%' ∉ name := hc
    cases name with
    | nil =>
      exact errorf_index (head_plain ht) h2 sh _ e
    | cons x xs =>
      exact errorf_index (head_plain hc) h3 sh _ e
  | member name k =>
    replace hc : '%' ∉ name := hc
    cases name with
    | nil =>
      exact errorf_key (head_plain ht) h4 sh _ e
    | cons x xs =>
      exact errorf_key (head_plain hc) h4 sh _ e

/-- all of them -/
theorem errorfAll_says (sh : Char → Option FmtArg → Str) (cause : GoErr) : ∀ {cs : List (ECtx × Str)}, (∀ c ∈ cs, '%' ∉ c.1.name ∧ '%' ∉ c.2) →
    ∃ g, errorfAll sh cs cause = some g ∧ LeadsBack g cause ∧ g.text = saysAll (fun k => sh 'q' (some (.key k))) cs cause.text
  | [], _ => ⟨cause, rfl, .self, rfl⟩
  | (c, typ) :: cs, h => by
    obtain ⟨g, h1, h2, h3⟩ := errorfAll_says sh cause fun x hx => h x (List.mem_cons_of_mem _ hx)
    obtain ⟨hc, ht⟩ := h (c, typ) (by simp)
    refine ⟨.made (c.says (fun k => sh 'q' (some (.key k))) typ ++ g.text) (some g), ?_, .wraps rfl h2, ?_⟩
    · simp only [errorfAll, h1, Option.bind_some, errorf_says sh hc ht]
    · show _ ++ g.text = _ ++ _
      rw [h3]

section
variable [Ext] {Γ : Env}

theorem noPercent_lasting : Lasting (fun name => '%' ∉ name) EErr.NoPercent where
  attr e name hn h := fun c hc => (List.mem_cons.1 hc).elim (fun e => e ▸ hn) (h c)
  item e name i hn h := fun c hc => (List.mem_cons.1 hc).elim (fun e => e ▸ hn) (h c)
  member e name k hn h := fun c hc => (List.mem_cons.1 hc).elim (fun e => e ▸ hn) (h c)
  time := fun c hc => by cases hc
  object := fun c hc => by cases hc

/-- the names in an error of `MarshalJSON` are JSON names of the package -/
theorem marshal_noPercent (hN : NoPercents Γ) {n : Nat} {v : Option GoVal} {e : EErr} (h : Marshals Γ n v (.error e)) : e.NoPercent := by
  obtain ⟨e', w, ⟨k, h⟩, hr⟩ := marshals_iff.1 h
  have hs := methods_says noPercent_lasting (by simp) hN.names
    (fun n r hd w a w' hw hf => hN.foreign n r w a w' hd hw hf) k n v _ _ _ (by simp [W.empty]; exact allErr_none) h
  cases e' with
  | some x => cases hr; exact hs.1 _ rfl
  | none =>
    cases hx : w.err with
    | none => simp [W.build, hx] at hr
    | some y => simp only [W.build, hx] at hr; cases hr; exact hs.2 _ hx

/-- **C79, partial**: the cause of an error of `MarshalJSON` can be found.  In a package where no JSON name has a percent sign, the error
`MarshalJSON` returns leads back to the error it was caused by (`errors.Is` finds it), and its message names the way there and ends in the
message of the cause. -/
theorem C79_wraps_partial (hN : NoPercents Γ) {n : Nat} {v : Option GoVal} {e : EErr} (h : Marshals Γ n v (.error e))
    (sh : Char → Option FmtArg → Str) {way : List (ECtx × Str)} (hl : way.map Prod.fst = e.ctx) (ht : ∀ c ∈ way, '%' ∉ c.2) (cause : GoErr) :
    ∃ g, errorfAll sh way cause = some g ∧ LeadsBack g cause ∧ g.text = saysAll (fun k => sh 'q' (some (.key k))) way cause.text :=
  errorfAll_says sh cause fun c hc => ⟨marshal_noPercent hN h _ (hl ▸ List.mem_map_of_mem hc), ht c hc⟩

theorem fmtRun_no_args (sh : Char → Option FmtArg → Str) : ∀ ps : List FmtPiece, (fmtRun sh ps []).2 = none
  | [] => rfl
  | .text c :: ps => by simp only [fmtRun, fmtRun_no_args sh ps]
  | .verb c :: ps => by simp only [fmtRun, fmtRun_no_args sh ps]

theorem fmtRun_taken (sh : Char → Option FmtArg → Str) {c : Char} (hw : c ≠ 'w') (e : GoErr) (ps : List FmtPiece) :
    (fmtRun sh (.verb c :: ps) [.err e]).2 = none := by
  simp only [fmtRun]
  split
  · exact absurd rfl hw
  · rename_i h1 h2; cases h2
  · exact fmtRun_no_args sh ps

/-- a verb in a format -/
theorem fmtPieces_verb {c : Char} (hc : c.isAlpha = true) (rest : Str) : fmtPieces ('%' :: c :: rest) = (fmtPieces rest).map (.verb c :: ·) := by
  have hc' : c ≠ '%' := by rintro rfl; revert hc; decide
  rw [fmtPieces]
  · simp [hc]
  all_goals simp_all

/-- **C79 fails for JSON names with percent signs.**  The name is part of the format: the first verb in it takes the error, and the `%w`
gets nothing.  Whatever the name is, when its first percent sign is followed by a letter other than w, the error made for a field wraps
nothing. -/
theorem C79_percent (sh : Char → Option FmtArg → Str) {pre post typ : Str} {c : Char} (hp : '%' ∉ pre) (hc : c.isAlpha = true) (hw : c ≠ 'w')
    (e g : GoErr) (h : (ECtx.attr (pre ++ '%' :: c :: post)).errorf sh typ e = some g) : g.unwrap = none := by
  have hf : ∀ a b : Str, a ++ (pre ++ '%' :: c :: post) ++ b = a ++ pre ++ '%' :: c :: (post ++ b) := fun a b => by simp
  have h' : errorf sh (msg "can't marshal \"" ++ (pre ++ '%' :: c :: post) ++ msg "\" attribute: %w") [.err e] = some g := h
  have hA := head_plain hp
  clear h
  generalize msg "can't marshal \"" = A at h' hA
  generalize msg "\" attribute: %w" = B at h'
  rw [errorf, hf, fmtPieces_plain hA, fmtPieces_verb hc] at h'
  cases hr : fmtPieces (post ++ B) with
  | none => rw [hr] at h'; cases h'
  | some ps =>
    rw [hr] at h'
    simp only [Option.map_some, fmtRun_text, Option.some.injEq] at h'
    subst h'
    exact fmtRun_taken sh hw e ps

/-- A doubled percent sign in a JSON name is harmless for the cause, but the message tells another name, with one percent sign. -/
theorem C79_doubled (sh : Char → Option FmtArg → Str) {pre post typ : Str} (hp : '%' ∉ pre) (hq : '%' ∉ post) (e : GoErr) :
    (ECtx.attr (pre ++ '%' :: '%' :: post)).errorf sh typ e =
      some (.made ((ECtx.attr (pre ++ '%' :: post)).says (fun k => sh 'q' (some (.key k))) typ ++ e.text) (some e)) := by
  have h1 : fmtPieces (msg "\" attribute: %w") = some ((msg "\" attribute: ").map .text ++ [.verb 'w']) := by decide +kernel
  have hA := head_plain hp
  show errorf sh (msg "can't marshal \"" ++ (pre ++ '%' :: '%' :: post) ++ msg "\" attribute: %w") [.err e] =
    some (.made (msg "can't marshal \"" ++ (pre ++ '%' :: post) ++ msg "\" attribute: " ++ e.text) (some e))
  generalize msg "can't marshal \"" = A at hA ⊢
  generalize msg "\" attribute: %w" = B at h1 ⊢
  generalize msg "\" attribute: " = C at h1 ⊢
  have hpc : ∀ cs, fmtPieces ('%' :: '%' :: cs) = (fmtPieces cs).map (.text '%' :: ·) := fun cs => by rw [fmtPieces]
  have hf : A ++ (pre ++ '%' :: '%' :: post) ++ B = A ++ pre ++ '%' :: '%' :: (post ++ B) := by simp
  have hr : fmtPieces (A ++ (pre ++ '%' :: '%' :: post) ++ B) = some ((A ++ pre ++ '%' :: (post ++ C)).map .text ++ [.verb 'w']) := by
    rw [hf, fmtPieces_plain hA, hpc, fmtPieces_plain hq, h1]
    simp
  rw [errorf, hr, Option.map_some, fmtRun_text]
  simp [fmtRun]

end


/-! ## Examples -/

namespace MessageSample
open Sample
attribute [local instance] TimeSample.ext

/-- type Store struct { Id int64 `json:"id,required"`; Limits map[string]Item `json:"limits"` };
type Item struct { Size int8 `json:"size"` } -/
def Γ : Env where
  decl
    | 0 => some (.struct false [⟨.prim .int64, { jsonName := str "id", appendix := str "required" }⟩, ⟨.map (.named 1), tag "limits"⟩])
    | 1 => some (.struct false [⟨.prim .int8, tag "size"⟩])
    | _ => none
  ext _ := .unsupp

def S (n : Nat) : Prop := n = 0 ∨ n = 1

theorem traced : TracedSet Γ S := by
  refine ⟨?_, ?_, ?_⟩
  · intro n d t m hn hd ht hm
    rcases hn with rfl | rfl <;> cases hd <;> simp [Decl.types, tag] at ht
    · rcases ht with rfl | rfl
      · cases hm
      · simp [TExpr.names] at hm; exact .inr hm
    · subst ht; cases hm
  · intro n d t hn hd ht
    rcases hn with rfl | rfl <;> cases hd <;> simp [Decl.types, tag] at ht
    · rcases ht with rfl | rfl <;> rfl
    · subst ht; rfl
  · intro n d hn hd
    rcases hn with rfl | rfl <;> cases hd <;> intro fd hfd _ <;>
      simp only [List.mem_cons, List.not_mem_nil, or_false] at hfd
    · rcases hfd with rfl | rfl
      · exact ⟨by decide, fun elt h => by rcases h with h | ⟨_, h⟩ <;> cases h⟩
      · exact ⟨by decide, fun elt h => by rcases h with h | ⟨_, h⟩ <;> cases h⟩
    · subst hfd
      exact ⟨by decide, fun elt h => by rcases h with h | ⟨_, h⟩ <;> cases h⟩

theorem tellable : TellableNames Γ := by
  intro n strict fields fd hd hf
  match n, hd with
  | 0, hd =>
    cases hd
    simp only [List.mem_cons, List.not_mem_nil, or_false] at hf
    rcases hf with rfl | rfl <;> exact ⟨by decide +kernel, by decide +kernel⟩
  | 1, hd =>
    cases hd
    simp only [List.mem_cons, List.not_mem_nil, or_false] at hf
    subst hf
    exact ⟨by decide +kernel, by decide +kernel⟩

/-- messages of other packages -/
def other : Cause → Str := fun _ => str "no"

theorem plain : PlainMessages Γ other := ⟨fun _ => show placeIn (str "no") = [] from by decide +kernel, fun n v s e s' hd h => by cases h⟩

/-- {"id":1,"limits":{"big":{"size":"x"}}} -/
def doc : JV := .obj [(str "id", .num (str "1")), (str "limits", .obj [(str "big", .obj [(str "size", .str (str "x"))])])]

theorem doc_keys (key : Str) (h : DocKey key doc) : Tellable key := by
  have hs : ∀ {k : Str} {s : Str}, ¬ DocKey k (.str s) := fun h => by cases h
  have hm : ∀ {k : Str} {s : Str}, ¬ DocKey k (.num s) := fun h => by cases h
  have h1 : ∀ {k v : Str}, DocKey k (.obj [(str "size", .str v)]) → Tellable k := by
    intro k v h
    cases h with
    | here h => simp at h; rw [h.1]; exact ⟨by decide +kernel, by decide +kernel⟩
    | member h h' => simp at h; rw [h.2] at h'; exact absurd h' hs
  have h2 : ∀ {k v : Str}, DocKey k (.obj [(str "big", .obj [(str "size", .str v)])]) → Tellable k := by
    intro k v h
    cases h with
    | here h => simp at h; rw [h.1]; exact ⟨by decide +kernel, by decide +kernel⟩
    | member h h' => simp at h; rw [h.2] at h'; exact h1 h'
  cases h with
  | here h =>
    simp at h
    rcases h with h | h <;> rw [h.1] <;> exact ⟨by decide +kernel, by decide +kernel⟩
  | member h h' =>
    simp at h
    rcases h with h | h <;> rw [h.2] at h'
    · exact absurd h' hm
    · exact h2 h'

set_option maxRecDepth 200000 in
theorem doc_fails : ∃ new, Fills Γ 0 doc (.struct [.int 0, .nil]) (some ⟨some (str "limits.big.size"), .wrongType .number .string⟩) new := ⟨_, 5, rfl⟩

/-- the message of this document and the place in it -/
example : Err.text other ⟨some (str "limits.big.size"), .wrongType .number .string⟩ = str "error parsing 'limits.big.size': no" ∧
    placeIn (str "error parsing 'limits.big.size': no") = [str "limits", str "big", str "size"] := by decide +kernel

/-- **C78 applies to it.** -/
example : ∃ place tail L t v, LeadsTo Γ [] (.named 0) doc place L t v ∧ Wrong Γ L t v tail (.wrongType .number .string) ∧
    placeIn (Err.text other ⟨some (str "limits.big.size"), .wrongType .number .string⟩) = place ++ tail := by
  obtain ⟨new, h⟩ := doc_fails
  exact C78_place_partial traced tellable plain (.inl rfl) doc_keys h

set_option maxRecDepth 200000 in
/-- the required member is missing -/
example : Fills Γ 0 (.obj []) (.struct [.int 0, .nil]) (some ⟨some (str "id"), .required (str "id")⟩) (.struct [.int 0, .nil]) ∧
    Err.text other ⟨some (str "id"), .required (str "id")⟩ = str "error parsing 'id': required element 'id' is missing" :=
  ⟨⟨5, rfl⟩, by decide +kernel⟩

/-- type Pair struct { A Inner `json:"a"`; AB int8 `json:"a.b"` }; type Inner struct { B int8 `json:"b"` } -/
def pairEnv : Env where
  decl
    | 0 => some (.struct false [⟨.named 1, tag "a"⟩, ⟨.prim .int8, tag "a.b"⟩])
    | 1 => some (.struct false [⟨.prim .int8, tag "b"⟩])
    | _ => none
  ext _ := .unsupp

set_option maxRecDepth 200000 in
/-- **Names with dots make messages ambiguous**: {"a":{"b":"x"}} and {"a.b":"x"} are wrong at different places and have the same error. -/
theorem C78_ambiguous : ∃ e new new', Fills pairEnv 0 (.obj [(str "a", .obj [(str "b", .str (str "x"))])]) (.struct [.struct [.int 0], .int 0]) (some e) new ∧
    Fills pairEnv 0 (.obj [(str "a.b", .str (str "x"))]) (.struct [.struct [.int 0], .int 0]) (some e) new' :=
  ⟨⟨some (str "a.b"), .wrongType .number .string⟩, _, _, ⟨5, rfl⟩, ⟨5, rfl⟩⟩

/-! ### encoding -/

def structFields : Decl → List FieldDecl
  | .struct _ fields => fields
  | .alias _ => []

theorem noPercents : NoPercents TimeSample.Γ where
  names n strict fields fd hd hf := by
    have h : ∀ n ∈ TimeSample.names, ∀ d ∈ TimeSample.Γ.decl n, ∀ fd ∈ structFields d, '%' ∉ fd.tags.jsonName := by
      decide +kernel
    by_cases hn : n ∈ TimeSample.names
    · exact h n hn _ hd fd hf
    · exfalso
      match n, hn with
      | n + 5, _ => cases hd
  foreign n r w e w' hd hw h := by cases h

/-- the message for the log of C71, and its cause can be found -/
example (sh : Char → Option FmtArg → Str) (cause : GoErr) :
    ∃ g, errorfAll sh [(.item (str "items") 1, []), (.item (str "times") 1, [])] cause = some g ∧ LeadsBack g cause ∧
      g.text = saysAll (fun k => sh 'q' (some (.key k))) [(.item (str "items") 1, []), (.item (str "times") 1, [])] cause.text :=
  C79_wraps_partial noPercents TimeSample.log_fails sh rfl (by simp) cause

example : saysAll id [(.item (str "items") 1, []), (.item (str "times") 1, [])] (str "year outside of range") =
    str "can't marshal \"items\" item at position 1: can't marshal \"times\" item at position 1: year outside of range" := by decide +kernel

/-- type Stamp time.Time; type Times struct { At []*Stamp `json:"at"` }; type Rate struct { T Times `json:"rate%d"` } -/
def rateEnv : Env where
  decl
    | 0 => some (.alias .time)
    | 1 => some (.struct false [⟨.slice (.star (.named 0)), tag "at"⟩])
    | 2 => some (.struct false [⟨.named 1, tag "rate%d"⟩])
    | _ => none
  ext _ := .unsupp

def rateErr : EErr := ⟨[.attr (str "rate%d"), .item (str "at") 0], codeTimeText⟩

set_option maxRecDepth 200000 in
/-- **A percent sign in a JSON name hides the cause.**  The time has no text; the error `MarshalJSON` returns does not lead back to the
error of the time. -/
theorem C79_lost : Marshals rateEnv 2 (some (.struct [.struct [.slice [.ptr (.time ⟨-5, 0⟩)] []]])) (.error rateErr) ∧
    ∀ sh way t g, way.map Prod.fst = rateErr.ctx → errorfAll sh way (.leaf t codeTimeText) = some g → ¬ LeadsBack g (.leaf t codeTimeText) := by
  refine ⟨⟨5, rfl⟩, ?_⟩
  intro sh way t g hw hg hb
  match way, hw with
  | [(c1, t1), (c2, t2)], hw =>
    simp only [List.map_cons, List.map_nil, rateErr, List.cons.injEq, and_true] at hw
    obtain ⟨rfl, rfl⟩ := hw
    simp only [errorfAll, Option.bind_some] at hg
    obtain ⟨inner, _, hg⟩ := Option.bind_eq_some_iff.1 hg
    have hg' : (ECtx.attr (str "rate" ++ '%' :: 'd' :: [])).errorf sh t1 inner = some g := by
      rw [show str "rate" ++ '%' :: 'd' :: [] = str "rate%d" from by decide +kernel]; exact hg
    have hu := C79_percent sh (by decide +kernel) (by decide +kernel) (by decide +kernel) _ _ hg'
    cases hb with
    | self =>
      obtain ⟨_, _, h⟩ := Option.map_eq_some_iff.1 (show Option.map _ (fmtPieces _) = _ from hg)
      cases h
    | wraps h _ => rw [hu] at h; cases h

/-- there is such an error -/
example : (errorfAll (fun _ _ => []) [(.attr (str "rate%d"), str "Rate"), (.item (str "at") 0, str "Times")] (.leaf (str "year outside of range") codeTimeText)).isSome = true := by
  decide +kernel

end MessageSample

end VJ
