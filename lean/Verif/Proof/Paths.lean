import Verif.Spec.Paths

/-!
# Lemmas about paths as texts
-/

namespace VJ

/-! ## splitting and joining -/

theorem splitSlash_ne_nil (s : Str) : splitSlash s ≠ [] := by
  cases s with
  | nil => simp [splitSlash]
  | cons c s =>
    unfold splitSlash
    split
    · simp
    · split <;> simp

theorem splitSlash_append (a b : Str) : splitSlash (a ++ '/' :: b) = splitSlash a ++ splitSlash b := by
  induction a with
  | nil => simp [splitSlash]
  | cons c a ih =>
    simp only [List.cons_append, splitSlash, ih]
    by_cases hc : c = '/'
    · simp [hc]
    · simp only [hc, if_false]
      cases h : splitSlash a with
      | nil => exact absurd h (splitSlash_ne_nil a)
      | cons w ws => rfl

theorem splitSlash_plain {w : Str} (h : '/' ∉ w) : splitSlash w = [w] := by
  induction w with
  | nil => rfl
  | cons c w ih =>
    simp only [List.mem_cons, not_or] at h
    simp [splitSlash, Ne.symm h.1, ih h.2]

theorem splitSlash_mem {s w : Str} (h : w ∈ splitSlash s) : '/' ∉ w := by
  induction s generalizing w with
  | nil => simp [splitSlash] at h; simp [h]
  | cons c s ih =>
    simp only [splitSlash] at h
    split at h
    · simp only [List.mem_cons] at h
      rcases h with rfl | h
      · simp
      · exact ih h
    · rename_i hc
      split at h
      · rename_i h1; exact absurd h1 (splitSlash_ne_nil s)
      · rename_i v vs h1
        simp only [List.mem_cons] at h
        rcases h with rfl | h
        · have := ih (w := v) (by rw [h1]; simp)
          simp only [List.mem_cons, not_or]
          exact ⟨fun h => hc h.symm, this⟩
        · exact ih (by rw [h1]; simp [h])

theorem splitSlash_join : ∀ {l : List Str}, l ≠ [] → (∀ w ∈ l, '/' ∉ w) → splitSlash (joinSlash l) = l
  | [], h, _ => absurd rfl h
  | [w], _, h => splitSlash_plain (h w (by simp))
  | w :: v :: ws, _, h => by
    have ih := splitSlash_join (l := v :: ws) (by simp) (fun w hw => h w (by simp [hw]))
    simp only [joinSlash, splitSlash_append, splitSlash_plain (h w (by simp)), ih]
    rfl

/-- a text is absolute when its first part is empty and there is another -/
theorem isAbs_iff (s : Str) : isAbs s = true ↔ ∃ w ws, splitSlash s = [] :: w :: ws := by
  cases s with
  | nil => simp [isAbs, splitSlash]
  | cons c s =>
    simp only [isAbs, List.head?_cons, beq_iff_eq, Option.some.injEq, splitSlash]
    by_cases hc : c = '/'
    · simp only [hc, if_true, true_iff]
      cases h : splitSlash s with
      | nil => exact absurd h (splitSlash_ne_nil s)
      | cons w ws => exact ⟨w, ws, rfl⟩
    · simp only [hc, if_false, false_iff]
      split <;> simp

theorem isAbs_congr {s t : Str} (h : (∃ w ws, splitSlash s = [] :: w :: ws) ↔ ∃ w ws, splitSlash t = [] :: w :: ws) : isAbs s = isAbs t := by
  have := (isAbs_iff s).trans (h.trans (isAbs_iff t).symm)
  cases hs : isAbs s <;> cases ht : isAbs t <;> simp_all

/-! ## cleaned paths -/

/-- a part that is the name of something -/
def GoodName (w : Str) : Prop := w ≠ [] ∧ w ≠ str "." ∧ w ≠ str ".." ∧ '/' ∉ w

/-- the text of a cleaned path -/
def cleanText (rooted : Bool) (u : Nat) (names : List Str) : Str :=
  if rooted then '/' :: joinSlash names
  else if u = 0 ∧ names = [] then str "." else joinSlash (List.replicate u (str "..") ++ names)

theorem cleanStep_skip {r : Bool} {out : List Str} {p : Str} (h : p = [] ∨ p = str ".") : cleanStep r out p = out := by
  simp [cleanStep, h]

theorem cleanStep_name {r : Bool} {out : List Str} {p : Str} (h : GoodName p) : cleanStep r out p = p :: out := by
  obtain ⟨h1, h2, h3, _⟩ := h
  simp [cleanStep, h1, h2, h3]

theorem dotdot_ne : str ".." ≠ [] ∧ str ".." ≠ str "." := by decide

theorem cleanStep_up_name {r : Bool} {ns : List Str} {n : Str} {u : Nat} (h : GoodName n) :
    cleanStep r ((ns ++ [n]).reverse ++ List.replicate u (str "..")) (str "..") = ns.reverse ++ List.replicate u (str "..") := by
  simp [cleanStep, dotdot_ne.1, dotdot_ne.2, h.2.2.1]

theorem cleanStep_up_up {u : Nat} :
    cleanStep false (List.replicate u (str "..")) (str "..") = List.replicate (u + 1) (str "..") := by
  cases u with
  | zero => simp [cleanStep, dotdot_ne.1, dotdot_ne.2]
  | succ u => simp [cleanStep, dotdot_ne.1, dotdot_ne.2, List.replicate_succ]

theorem cleanStep_up_root : cleanStep true [] (str "..") = [] := by
  simp [cleanStep, dotdot_ne.1, dotdot_ne.2]

theorem up_dropLast (u : Nat) (d : List Str) : (up u d).dropLast = up (u + 1) d := rfl

/-- what `path.Clean` writes, and that it names the same -/
theorem cleanFold {r : Bool} {d0 : List Str} (hd : r = true → d0 = []) : ∀ (parts : List Str) (u : Nat) (names : List Str),
    (∀ p ∈ parts, '/' ∉ p) → (r = true → u = 0) → (∀ n ∈ names, GoodName n) →
    ∃ u' names', parts.foldl (cleanStep r) (names.reverse ++ List.replicate u (str "..")) = names'.reverse ++ List.replicate u' (str "..") ∧
      (r = true → u' = 0) ∧ (∀ n ∈ names', GoodName n) ∧ follow (up u d0 ++ names) parts = up u' d0 ++ names' ∧
      ((∀ p ∈ parts, p ≠ str "..") → u' = u)
  | [], u, names, _, hu, hn => ⟨u, names, rfl, hu, hn, rfl, fun _ => rfl⟩
  | p :: ps, u, names, hs, hu, hn => by
    have hs' : ∀ q ∈ ps, '/' ∉ q := fun q hq => hs q (by simp [hq])
    by_cases h1 : p = [] ∨ p = str "."
    · obtain ⟨u', names', h2, h3, h4, h5, h6⟩ := cleanFold hd ps u names hs' hu hn
      refine ⟨u', names', ?_, h3, h4, ?_, fun h => h6 fun q hq => h q (by simp [hq])⟩
      · rw [List.foldl_cons, cleanStep_skip h1, h2]
      · simp only [follow, h1, if_true, h5]
    · by_cases h2 : p = str ".."
      · subst h2
        have hf : ∀ d : List Str, follow d (str ".." :: ps) = follow d.dropLast ps := by
          intro d; simp [follow, dotdot_ne.1, dotdot_ne.2]
        rcases List.eq_nil_or_concat names with rfl | ⟨ns, n, rfl⟩
        · cases r with
          | true =>
            have hu0 := hu rfl
            subst hu0
            obtain ⟨u', names', h2, h3, h4, h5, h6⟩ := cleanFold hd ps 0 [] hs' hu hn
            refine ⟨u', names', ?_, h3, h4, ?_, fun h => absurd rfl (h _ (by simp))⟩
            · rw [List.foldl_cons]
              simpa [cleanStep_up_root] using h2
            · rw [hf]
              simp only [up, List.append_nil] at h5 ⊢
              rw [hd rfl] at h5 ⊢
              simpa using h5
          | false =>
            obtain ⟨u', names', h2, h3, h4, h5, h6⟩ := cleanFold hd ps (u + 1) [] hs' (by simp) hn
            refine ⟨u', names', ?_, h3, h4, ?_, fun h => absurd rfl (h _ (by simp))⟩
            · rw [List.foldl_cons]
              simpa [cleanStep_up_up] using h2
            · rw [hf]
              simpa [up] using h5
        · rw [List.concat_eq_append] at hn ⊢
          obtain ⟨u', names', h2, h3, h4, h5, h6⟩ := cleanFold hd ps u ns hs' hu (fun m hm => hn m (by simp [hm]))
          refine ⟨u', names', ?_, h3, h4, ?_, fun h => absurd rfl (h _ (by simp))⟩
          · rw [List.foldl_cons, cleanStep_up_name (hn n (by simp)), h2]
          · rw [hf, ← List.append_assoc, List.dropLast_concat, h5]
      · have hg : GoodName p := ⟨fun h => h1 (.inl h), fun h => h1 (.inr h), h2, hs p (by simp)⟩
        obtain ⟨u', names', h3, h4, h5, h6, h7⟩ := cleanFold hd ps u (names ++ [p]) hs' hu (by
          intro n hm
          simp only [List.mem_append, List.mem_singleton] at hm
          rcases hm with hm | rfl
          · exact hn n hm
          · exact hg)
        refine ⟨u', names', ?_, h4, h5, ?_, fun h => h7 fun q hq => h q (by simp [hq])⟩
        · rw [List.foldl_cons, cleanStep_name hg]
          simpa using h3
        · simp only [follow, h1, h2, if_false]
          rw [← h6, List.append_assoc]

/-- a cleaned path -/
theorem pathClean_spec (cwd : List Str) (p : Str) : ∃ u names, pathClean p = cleanText (isAbs p) u names ∧ (isAbs p = true → u = 0) ∧
    (∀ n ∈ names, GoodName n) ∧ placeOf cwd p = up u (if isAbs p then [] else cwd) ++ names ∧
    ((∀ q ∈ splitSlash p, q ≠ str "..") → u = 0) := by
  obtain ⟨u, names, h1, h2, h3, h4, h5⟩ := cleanFold (r := isAbs p) (d0 := if isAbs p then [] else cwd) (by intro h; simp [h])
    (splitSlash p) 0 [] (fun q hq => splitSlash_mem hq) (fun _ => rfl) (by simp)
  simp only [List.reverse_nil, List.replicate_zero, List.append_nil, up] at h1 h4
  refine ⟨u, names, ?_, h2, h3, h4, fun h => h5 h⟩
  unfold pathClean cleanText
  simp only [h1, List.reverse_append, List.reverse_reverse, List.reverse_replicate]
  cases hb : isAbs p with
  | true => simp [h2 hb]
  | false =>
    simp only [Bool.false_eq_true, if_false, List.append_eq_nil_iff, List.replicate_eq_nil_iff]

/-- the parts of a cleaned path -/
theorem splitSlash_cleanText {r : Bool} {u : Nat} {names : List Str} (hn : ∀ n ∈ names, GoodName n) :
    splitSlash (cleanText r u names) =
      if r then [] :: (if names = [] then [[]] else names)
      else if u = 0 ∧ names = [] then [str "."] else List.replicate u (str "..") ++ names := by
  unfold cleanText
  cases r with
  | true =>
    simp only [if_true, splitSlash]
    cases names with
    | nil => simp [joinSlash, splitSlash]
    | cons n ns => rw [splitSlash_join (by simp) (fun w hw => (hn w hw).2.2.2)]; simp
  | false =>
    simp only [Bool.false_eq_true, if_false]
    split
    · decide
    · rename_i h
      refine splitSlash_join ?_ ?_
      · intro h'
        simp only [List.append_eq_nil_iff, List.replicate_eq_nil_iff] at h'
        exact h h'
      · intro w hw
        simp only [List.mem_append, List.mem_replicate] at hw
        rcases hw with ⟨_, rfl⟩ | hw
        · decide
        · exact (hn w hw).2.2.2

theorem isAbs_cleanText {r : Bool} {u : Nat} {names : List Str} (hn : ∀ n ∈ names, GoodName n) : isAbs (cleanText r u names) = r := by
  cases r with
  | true => simp [cleanText, isAbs]
  | false =>
    have h := isAbs_iff (cleanText false u names)
    rw [splitSlash_cleanText hn] at h
    simp only [Bool.false_eq_true, if_false] at h
    cases hb : isAbs (cleanText false u names) with
    | false => rfl
    | true =>
      exfalso
      obtain ⟨w, ws, hw⟩ := h.1 hb
      split at hw
      · simp at hw
      · cases u with
        | zero =>
          simp only [List.replicate_zero, List.nil_append] at hw
          exact (hn [] (by rw [hw]; simp)).1 rfl
        | succ u =>
          simp only [List.replicate_succ, List.cons_append, List.cons.injEq] at hw
          exact dotdot_ne.1 hw.1

theorem follow_names {d : List Str} : ∀ {names : List Str}, (∀ n ∈ names, GoodName n) → follow d names = d ++ names := by
  intro names
  induction names generalizing d with
  | nil => simp [follow]
  | cons n ns ih =>
    intro h
    obtain ⟨h1, h2, h3, _⟩ := h n (by simp)
    simp only [follow, h1, h2, h3, or_self, if_false]
    rw [ih (fun m hm => h m (by simp [hm]))]
    simp

theorem follow_append (d : List Str) (a b : List Str) : follow d (a ++ b) = follow (follow d a) b := by
  induction a generalizing d with
  | nil => rfl
  | cons p ps ih =>
    simp only [List.cons_append, follow]
    split
    · exact ih _
    · split <;> exact ih _

theorem up_succ' (u : Nat) (d : List Str) : up u d.dropLast = up (u + 1) d := by
  induction u with
  | zero => rfl
  | succ u ih => simp only [up, ih]

theorem follow_ups (u : Nat) (d : List Str) : follow d (List.replicate u (str "..")) = up u d := by
  induction u generalizing d with
  | zero => rfl
  | succ u ih =>
    simp only [List.replicate_succ, follow, dotdot_ne.1, dotdot_ne.2, or_self, if_false, if_true, ih]
    exact up_succ' u d

/-- what a cleaned path names -/
theorem placeOf_cleanText {cwd : List Str} {r : Bool} {u : Nat} {names : List Str} (hn : ∀ n ∈ names, GoodName n) (hu : r = true → u = 0) :
    placeOf cwd (cleanText r u names) = up u (if r then [] else cwd) ++ names := by
  unfold placeOf
  rw [isAbs_cleanText hn, splitSlash_cleanText hn]
  cases r with
  | true =>
    rw [hu rfl]
    simp only [if_true, follow, true_or, up, List.nil_append]
    split
    · rename_i h; subst h; simp [follow]
    · rw [follow_names hn]; simp
  | false =>
    simp only [Bool.false_eq_true, if_false]
    split
    · rename_i h
      obtain ⟨rfl, rfl⟩ := h
      simp [follow, up]
    · rw [follow_append, follow_ups, follow_names hn]

theorem placeOf_clean (cwd : List Str) (p : Str) : placeOf cwd (pathClean p) = placeOf cwd p := by
  obtain ⟨u, names, h1, h2, h3, h4, _⟩ := pathClean_spec cwd p
  rw [h1, placeOf_cleanText h3 h2, h4]

/-- the go.mod file of a directory -/
theorem placeOf_join {cwd : List Str} {p : Str} (hp : p ≠ []) : placeOf cwd (pathJoin p (str "go.mod")) = placeOf cwd p ++ [str "go.mod"] := by
  have hs : splitSlash (p ++ '/' :: str "go.mod") = splitSlash p ++ [str "go.mod"] := by
    rw [splitSlash_append]; rfl
  have ha : isAbs (p ++ '/' :: str "go.mod") = isAbs p := by
    cases p with
    | nil => exact absurd rfl hp
    | cons c p => rfl
  unfold pathJoin
  rw [if_neg hp, placeOf_clean]
  unfold placeOf
  rw [ha, hs, follow_append]
  generalize follow _ (splitSlash p) = d
  have h : str "go.mod" ≠ [] ∧ str "go.mod" ≠ str "." ∧ str "go.mod" ≠ str ".." := by decide
  simp [follow, h.1, h.2.1, h.2.2]

theorem dropLast_mem_noSlash {s : Str} {w : Str} (h : w ∈ (splitSlash s).dropLast ++ [[]]) : '/' ∉ w := by
  simp only [List.mem_append, List.mem_singleton] at h
  rcases h with h | rfl
  · exact splitSlash_mem (List.dropLast_subset _ h)
  · simp

theorem splitSlash_dirPart (s : Str) : splitSlash (joinSlash ((splitSlash s).dropLast ++ [[]])) = (splitSlash s).dropLast ++ [[]] :=
  splitSlash_join (by simp) (fun _ hw => dropLast_mem_noSlash hw)

theorem isAbs_dirPart (s : Str) : isAbs (joinSlash ((splitSlash s).dropLast ++ [[]])) = isAbs s := by
  refine isAbs_congr ?_
  rw [splitSlash_dirPart]
  cases splitSlash s with
  | nil => simp
  | cons a l =>
    cases l with
    | nil => simp
    | cons b l => cases l <;> simp

/-- the directory of a path -/
theorem pathDir_spec (cwd : List Str) (p : Str) : ∃ u names, pathDir p = cleanText (isAbs p) u names ∧ (isAbs p = true → u = 0) ∧
    (∀ n ∈ names, GoodName n) ∧ follow (if isAbs p then [] else cwd) (splitSlash p).dropLast = up u (if isAbs p then [] else cwd) ++ names ∧
    ((∀ q ∈ splitSlash p, q ≠ str "..") → u = 0) := by
  obtain ⟨u, names, h1, h2, h3, h4, h5⟩ := pathClean_spec cwd (joinSlash ((splitSlash p).dropLast ++ [[]]))
  rw [isAbs_dirPart] at h1 h2 h4
  unfold placeOf at h4
  rw [splitSlash_dirPart, isAbs_dirPart, follow_append] at h4
  rw [splitSlash_dirPart] at h5
  refine ⟨u, names, h1, h2, h3, ?_, fun h => h5 ?_⟩
  · rw [← h4]
    generalize follow _ (splitSlash p).dropLast = d
    simp [follow]
  · intro q hq
    simp only [List.mem_append, List.mem_singleton] at hq
    rcases hq with hq | rfl
    · exact h q (List.dropLast_subset _ hq)
    · decide

/-- the next directory the search looks at -/
theorem pathDir_name {r : Bool} {u : Nat} {ns : List Str} {n : Str} (hu : r = true → u = 0) (hn : ∀ m ∈ ns ++ [n], GoodName m) :
    pathDir (cleanText r u (ns ++ [n])) = cleanText r u ns := by
  have hns : ∀ m ∈ ns, GoodName m := fun m hm => hn m (by simp [hm])
  have hsp := splitSlash_cleanText (r := r) (u := u) hn
  simp only [List.append_eq_nil_iff, List.cons_ne_nil, and_false, if_false] at hsp
  have key : ∀ out : List Str, ns.foldl (cleanStep r) out = ns.reverse ++ out := by
    have := hns
    clear hsp hn hns
    induction ns with
    | nil => simp
    | cons m ms ih =>
      intro out
      rw [List.foldl_cons, cleanStep_name (this m (by simp)), ih (fun q hq => this q (by simp [hq]))]
      simp
  have kup : ∀ v u : Nat, (List.replicate u (str "..")).foldl (cleanStep false) (List.replicate v (str "..")) = List.replicate (v + u) (str "..") := by
    intro v u
    induction u generalizing v with
    | zero => rfl
    | succ u ih => rw [List.replicate_succ, List.foldl_cons, cleanStep_up_up, ih]; congr 1; omega
  have hd : (splitSlash (cleanText r u (ns ++ [n]))).dropLast = if r then [] :: ns else List.replicate u (str "..") ++ ns := by
    rw [hsp]
    cases r with
    | true =>
      simp only [if_true]
      rw [← List.cons_append, List.dropLast_concat]
    | false => simp [← List.append_assoc]
  unfold pathDir pathClean
  rw [splitSlash_dirPart, isAbs_dirPart, isAbs_cleanText hn, hd]
  cases r with
  | true =>
    simp only [if_true, List.foldl_append, List.foldl_cons, List.foldl_nil, cleanStep_skip (Or.inl rfl), key]
    simp [cleanText]
  | false =>
    simp only [Bool.false_eq_true, if_false, List.foldl_append, List.foldl_cons, List.foldl_nil, cleanStep_skip (Or.inl rfl), key]
    have h0 := kup 0 u
    simp only [List.replicate_zero, Nat.zero_add] at h0
    rw [h0]
    simp [cleanText]

theorem pathDir_up {u : Nat} : pathDir (cleanText false (u + 1) []) = cleanText false u [] := by
  have hn : ∀ m ∈ ([] : List Str), GoodName m := by simp
  have hsp := splitSlash_cleanText (r := false) (u := u + 1) hn
  have kup : ∀ v u : Nat, (List.replicate u (str "..")).foldl (cleanStep false) (List.replicate v (str "..")) = List.replicate (v + u) (str "..") := by
    intro v u
    induction u generalizing v with
    | zero => rfl
    | succ u ih => rw [List.replicate_succ, List.foldl_cons, cleanStep_up_up, ih]; congr 1; omega
  have hd : (splitSlash (cleanText false (u + 1) [])).dropLast = List.replicate u (str "..") := by
    rw [hsp]
    simp
  unfold pathDir pathClean
  rw [splitSlash_dirPart, isAbs_dirPart, isAbs_cleanText hn, hd]
  have h0 := kup 0 u
  simp only [List.replicate_zero, Nat.zero_add] at h0
  simp only [Bool.false_eq_true, if_false, List.foldl_append, List.foldl_cons, List.foldl_nil, cleanStep_skip (Or.inl rfl), h0]
  simp [cleanText]

/-- where the search ends -/
theorem cleanText_end {r : Bool} {u : Nat} {names : List Str} (hn : ∀ n ∈ names, GoodName n) (hu : r = true → u = 0) :
    (cleanText r u names = str "/" ∨ cleanText r u names = str "." ∨ cleanText r u names = []) ↔ u = 0 ∧ names = [] := by
  have hsp := splitSlash_cleanText (r := r) (u := u) hn
  constructor
  · intro h
    cases r with
    | true =>
      refine ⟨hu rfl, ?_⟩
      simp only [if_true] at hsp
      cases hl : names with
      | nil => rfl
      | cons n ns =>
        exfalso
        have hg := hn n (by simp [hl])
        rw [hl] at hsp h
        simp only [List.cons_ne_nil, if_false] at hsp
        rcases h with h | h | h <;> rw [h] at hsp <;> revert hsp <;> simp [splitSlash, str]
        intro h'; exact absurd h' hg.1
    | false =>
      simp only [Bool.false_eq_true, if_false] at hsp
      split at hsp
      · assumption
      · exfalso
        rename_i hne
        cases u with
        | succ u =>
          rw [List.replicate_succ] at hsp
          rcases h with h | h | h <;> rw [h] at hsp <;> revert hsp <;> simp [splitSlash, str]
        | zero =>
          cases hl : names with
          | nil => exact hne ⟨rfl, hl⟩
          | cons n ns =>
            have hg := hn n (by simp [hl])
            rw [hl] at hsp h
            simp only [List.replicate_zero, List.nil_append] at hsp
            rcases h with h | h | h <;> rw [h] at hsp <;> simp [splitSlash, str] at hsp
            · exact hg.1 hsp.1
            · exact hg.2.1 hsp.1.symm
            · exact hg.1 hsp.1
  · rintro ⟨rfl, rfl⟩
    cases r
    · exact .inr (.inl rfl)
    · exact .inl rfl

theorem cleanText_ne_nil {r : Bool} {u : Nat} {names : List Str} (hn : ∀ n ∈ names, GoodName n) (hu : r = true → u = 0) :
    cleanText r u names ≠ [] := by
  intro h
  obtain ⟨rfl, rfl⟩ := (cleanText_end hn hu).1 (.inr (.inr h))
  cases r <;> exact absurd h (by decide)

end VJ
