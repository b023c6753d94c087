import Verif.Proof.FieldSound
import Verif.Proof.Mono

/-!
# Whatever `Decodes` allows, emitted decoding code does
-/

set_option linter.unusedSectionVars false
set_option linter.unusedSimpArgs false

namespace VJ

variable [Ext]

/-! ### more fuel keeps successes -/

theorem runExtr_lift {Γ : Env} {K K' : Nat} (hK : K ≤ K') {x : Extr} {i : Nat} {v : JV} {fld : GoVal} {r : TV}
    (h : runExtr (Γ.methods K) x i v fld = .ok r) : runExtr (Γ.methods K') x i v fld = .ok r :=
  (runExtr_mono (methods_mono Γ hK) x i v fld).eq_of_ok h

theorem convT_lift {Γ : Env} {K K' : Nat} (hK : K ≤ K') {t : TExpr} {v w : GoVal}
    (h : convT (Γ.methods K) t v = .ok w) : convT (Γ.methods K') t v = .ok w :=
  (convT_mono (methods_mono Γ hK) t v).eq_of_ok h

theorem zeroT_lift {Γ : Env} {K K' : Nat} (hK : K ≤ K') {t : TExpr} {w : GoVal}
    (h : zeroT (Γ.methods K) t = .ok w) : zeroT (Γ.methods K') t = .ok w :=
  (zeroT_mono (methods_mono Γ hK) t).eq_of_ok h

theorem fillT_lift {Γ : Env} {K K' : Nat} (hK : K ≤ K') {t : TExpr} {v : JV} {s : GoVal} {r : Option Err × GoVal}
    (h : fillT (Γ.methods K) t v s = .ok r) : fillT (Γ.methods K') t v s = .ok r :=
  (fillT_mono (methods_mono Γ hK) t v s).eq_of_ok h

/-! ### resolution, the other way round -/

omit [Ext] in
theorem primName_final {Γ : Env} {e : TExpr} {p : Prim} (h : PrimName Γ e p) : resolve2 Γ (resolve Γ e) = .prim p := by
  cases h with
  | base h =>
    have hr : resolve Γ e = .prim p := by simp [resolve, denoted_prim.2 h, TExpr.isOrdinal]
    rw [hr]; rfl
  | chain hd h =>
    rename_i n u
    have hu := denoted_prim.2 h
    have h1 : Γ.denoted (.named n) = u := by simp [Env.denoted, Env.denotedIdent, hd, Decl.spec]
    have hr : resolve Γ (.named n) = u := by
      unfold resolve
      rw [h1]
      split
      · rfl
      · simp [Env.denotedIdent, hd, Decl.spec]
    rw [hr, resolve2, hu]
    rfl

theorem convT_primName_ok {Γ : Env} {e : TExpr} {p : Prim} (h : PrimName Γ e p) (val : GoVal) :
    convT (Γ.methods 2) e val = .ok (p.conv val) := by
  cases h with
  | base h =>
    cases h with
    | self => rfl
    | named hd => simp [convT, Env.methods, hd, declMethods]
    | sel hd => simp [convT, Env.methods, hd, declMethods]
  | chain hd h =>
    cases h with
    | self => simp [convT, Env.methods, hd, declMethods]
    | named hd' => simp [convT, Env.methods, hd, hd', declMethods]
    | sel hd' => simp [convT, Env.methods, hd, hd', declMethods]

theorem convT_is_ok {Γ : Env} {e T : TExpr} (h : Is Γ e T) (h1 : ∀ p, T ≠ .prim p) (h2 : ∀ m, T ≠ .named m)
    (h3 : ∀ m, T ≠ .sel m) (val : GoVal) : convT (Γ.methods 1) e val = .ok val := by
  have key : ∀ K, convT (Γ.methods K) T val = .ok val := by
    intro K
    cases T <;> simp_all [convT]
  cases h with
  | self => exact key _
  | named hd => simp only [convT, Env.methods, hd, declMethods, key]

/-- Every successful decode belongs to the kind the type resolves to. -/
theorem decodes_kind {Γ : Env} {L : Str} {t : TExpr} {v : JV} {old new : GoVal} (h : Decodes Γ L t v old new)
    {T : TExpr} (hT : resolve2 Γ (resolve Γ t) = T) :
    (∃ p, T = .prim p ∧ PrimDec p v new) ∨
    (T = .time ∧ ∃ s tm, v = .str s ∧ new = .time tm ∧ ReadsTime L s tm) ∨
    (T = .uuid ∧ ∃ s b, v = .str s ∧ new = .uuid b ∧ ReadsUUID s b) ∨
    (((∃ m, T = .named m) ∨ (∃ m, T = .sel m) ∨ T = .structT) ∧ ∃ n, Calls Γ t n ∧ Fills Γ n v old none new) ∨
    (T = .slice (.prim .byte) ∧ ((v = .null ∧ new = .nil) ∨ ∃ s b, v = .str s ∧ new = .bytes b ∧ Base64Text s b)) ∨
    (∃ n, T = .array n (.prim .byte) ∧ ((v = .null ∧ new = .barr (List.replicate n 0)) ∨
      ∃ s b, v = .str s ∧ new = .barr b ∧ Base64Text s b ∧ b.length = n)) ∨
    (∃ elt, T = .slice elt ∧ elt ≠ .prim .byte ∧ ∃ l z cells news, v = .arr l ∧
      new = .slice news (cells.drop l.length) ∧ ZeroOf Γ elt z ∧ Storage old l.length z cells ∧ news.length = l.length ∧
      (∀ (i : Nat) (w : GoVal), elt.nullLike = true → l[i]? = some .null → news[i]? = some w → w = .nil) ∧
      (∀ (i : Nat) (a : JV) (c w : GoVal), l[i]? = some a → cells[i]? = some c → news[i]? = some w →
        (elt.nullLike = true → a ≠ .null) → Decodes Γ [] elt a c w)) ∨
    (∃ n elt, T = .array n elt ∧ elt ≠ .prim .byte ∧ ∃ l z news, v = .arr l ∧ new = .arr news ∧ ZeroOf Γ elt z ∧
      l.length = n ∧ news.length = n ∧
      (∀ (i : Nat) (a : JV) (w : GoVal), l[i]? = some a → news[i]? = some w → Decodes Γ [] elt a z w)) ∨
    (∃ val, T = .map val ∧ ∃ (kvs : List (Str × JV)) (m0 : List (Str × GoVal)) (news : List GoVal), v = .obj kvs ∧
      new = .map (setAll m0 ((kvs.map (·.1)).zip news)) ∧ ((old = .nil ∧ m0 = []) ∨ old = .map m0) ∧
      news.length = kvs.length ∧
      (∀ (i : Nat) (key : Str) (w : GoVal), (∃ u, val = .star u) → kvs[i]? = some (key, .null) → news[i]? = some w → w = .nil) ∧
      (∀ (i : Nat) (key : Str) (a : JV) (w : GoVal), kvs[i]? = some (key, a) → news[i]? = some w →
        ((∃ u, val = .star u) → a ≠ .null) → DecodesNew Γ L val a w)) ∨
    (∃ u w, T = .star u ∧ new = .ptr w ∧ DecodesNew Γ L u v w) := by
  subst hT
  cases h with
  | prim ht h => exact Or.inl ⟨_, primName_final ht, h⟩
  | time ht h => exact Or.inr (Or.inl ⟨is_resolve ht (by simp) (by simp) (by simp), _, _, rfl, rfl, h⟩)
  | uuid ht h => exact Or.inr (Or.inr (Or.inl ⟨is_resolve ht (by simp) (by simp) (by simp), _, _, rfl, rfl, h⟩))
  | call ht h => exact Or.inr (Or.inr (Or.inr (Or.inl ⟨calls_final ht, _, ht, h⟩)))
  | bytes ht h =>
    exact Or.inr (Or.inr (Or.inr (Or.inr (Or.inl ⟨is_resolve ht (by simp) (by simp) (by simp), Or.inr ⟨_, _, rfl, rfl, h⟩⟩))))
  | bytesNull ht =>
    exact Or.inr (Or.inr (Or.inr (Or.inr (Or.inl ⟨is_resolve ht (by simp) (by simp) (by simp), Or.inl ⟨rfl, rfl⟩⟩))))
  | fixedBytes ht h hn =>
    exact Or.inr (Or.inr (Or.inr (Or.inr (Or.inr (Or.inl
      ⟨_, is_resolve ht (by simp) (by simp) (by simp), Or.inr ⟨_, _, rfl, rfl, h, hn⟩⟩)))))
  | fixedBytesNull ht =>
    exact Or.inr (Or.inr (Or.inr (Or.inr (Or.inr (Or.inl
      ⟨_, is_resolve ht (by simp) (by simp) (by simp), Or.inl ⟨rfl, rfl⟩⟩)))))
  | slice ht hb hz hc hlen hnull helem =>
    exact Or.inr (Or.inr (Or.inr (Or.inr (Or.inr (Or.inr (Or.inl
      ⟨_, is_resolve ht (by simp) (by simp) (by simp), hb, _, _, _, _, rfl, rfl, hz, hc, hlen, hnull, helem⟩))))))
  | array ht hb hz hl hlen helem =>
    exact Or.inr (Or.inr (Or.inr (Or.inr (Or.inr (Or.inr (Or.inr (Or.inl
      ⟨_, _, is_resolve ht (by simp) (by simp) (by simp), hb, _, _, _, rfl, rfl, hz, hl, hlen, helem⟩)))))))
  | map ht hold hlen hnull helem =>
    exact Or.inr (Or.inr (Or.inr (Or.inr (Or.inr (Or.inr (Or.inr (Or.inr (Or.inl
      ⟨_, is_resolve ht (by simp) (by simp) (by simp), _, _, _, rfl, rfl, hold, hlen, hnull, helem⟩))))))))
  | ptr h =>
    exact Or.inr (Or.inr (Or.inr (Or.inr (Or.inr (Or.inr (Or.inr (Or.inr (Or.inr
      ⟨_, _, is_resolve (.self _) (by simp) (by simp) (by simp), rfl, h⟩))))))))
  | namedPtr hn h =>
    exact Or.inr (Or.inr (Or.inr (Or.inr (Or.inr (Or.inr (Or.inr (Or.inr (Or.inr
      ⟨_, _, is_resolve (.named hn) (by simp) (by simp) (by simp), rfl, h⟩))))))))

/-! ### leaf templates -/

theorem primExtraction_complete {M : Nat → Methods} {dc : Bool} {path : PathE} {p : Prim} {x : Extr}
    (hx : primExtraction dc path p = .ok x) {v : JV} {w : GoVal} (hd : PrimDec p v w) (i : Nat) (fld : GoVal) :
    ∃ val, runExtr M x i v fld = .ok (.done (.ok val) fld) ∧ p.conv val = w := by
  cases hd with
  | signed hp h h1 h2 hw =>
    rename_i raw z w
    have hi : p.isInt = true := by cases p <;> simp_all [Prim.isSigned, Prim.isInt]
    have hx' : x = .int := by cases p <;> simp_all [Prim.isSigned, primExtraction]
    subst hx'
    refine ⟨.int z, ?_, ?_⟩
    · simp only [runExtr, JV.getInt, parseInt_iff.2 h]
      rw [if_pos (by omega)]
    · rw [WrapsTo.eq_wrap hi hw]
      cases p <;> simp_all [Prim.isSigned, Prim.conv]
  | unsigned hp h h2 hw =>
    rename_i raw n w
    have hi : p.isInt = true := by cases p <;> simp_all [Prim.isUnsigned, Prim.isInt]
    have hx' : x = .uint := by cases p <;> simp_all [Prim.isUnsigned, primExtraction]
    subst hx'
    refine ⟨.int n, ?_, ?_⟩
    · simp only [runExtr, JV.getUint, parseNat_iff.2 h]
      rw [if_pos (by omega)]
    · rw [WrapsTo.eq_wrap hi hw]
      cases p <;> simp_all [Prim.isUnsigned, Prim.conv]
  | float64 h =>
    simp only [primExtraction, Out.ok.injEq] at hx
    subst hx
    exact ⟨_, by simp [runExtr, JV.getFloat, h]; rfl, rfl⟩
  | float32 h =>
    simp only [primExtraction, Out.ok.injEq] at hx
    subst hx
    exact ⟨_, by simp [runExtr, JV.getFloat, h]; rfl, rfl⟩
  | bool b =>
    simp only [primExtraction, Out.ok.injEq] at hx
    subst hx
    exact ⟨_, rfl, rfl⟩
  | string s =>
    simp only [primExtraction, Out.ok.injEq] at hx
    subst hx
    cases dc <;> exact ⟨_, rfl, rfl⟩

theorem firstParse_of {s : Str} {t : Time} {l : Str} {post : List Str} (h : Ext.parseTime l s = some t) :
    ∀ {pre : List Str}, (∀ l' ∈ pre, Ext.parseTime l' s = none) → firstParse s (pre ++ l :: post) = some t
  | [], _ => by simp [firstParse, h]
  | a :: pre, hp => by
    simp only [List.cons_append, firstParse, hp a (by simp)]
    exact firstParse_of h fun l' hl' => hp l' (by simp [hl'])

omit [Ext] in
theorem timeConst_noDot {name l : Str} (h : timeConst name = some l) : '.' ∉ name := by
  unfold timeConst at h
  obtain ⟨p, hp, _⟩ := Option.map_eq_some_iff.1 h
  have h1 := List.find?_some hp
  have h2 := List.mem_of_find?_eq_some hp
  simp only [beq_iff_eq] at h1
  subst h1
  clear hp h
  simp only [List.mem_cons, List.not_mem_nil, or_false] at h2
  rcases h2 with h2 | h2 | h2 | h2 | h2 | h2 | h2 | h2 | h2 | h2 | h2 | h2 | h2 | h2 | h2 | h2 | h2 | h2 | h2 <;>
    subst h2 <;> decide

theorem timeExtr_complete {M : Nat → Methods} {L json : Str} {lo : Option Str} (hl : decodeLayout L = .ok lo) {s : Str}
    {t : Time} (h : ReadsTime L s t) (i : Nat) (fld : GoVal) :
    runExtr M (.time json lo) i (.str s) fld = .ok (.done (.ok (.time t)) fld) := by
  suffices hs : (match (generalizing := false) lo with
      | none => parseDateTime s
      | some l => Ext.parseTime l s) = some t by
    simp only [runExtr, JV.getStr]
    cases lo <;> (simp only at hs ⊢; rw [hs])
  cases h with
  | default hdoc hpre h =>
    simp only [decodeLayout, if_true, Out.ok.injEq] at hl
    subst hl
    simp only [parseDateTime]
    rw [show knownLayouts = documentedLayouts from rfl, hdoc]
    exact firstParse_of h hpre
  | const hn h =>
    rename_i name l
    unfold decodeLayout at hl
    have hne : str "time." ++ name ≠ [] := by simp [str]
    have hd : (str "time." ++ name).drop 5 = name := rfl
    have ht : (str "time." ++ name).take 5 = str "time." := rfl
    rw [if_neg hne, hd, ht] at hl
    have hnd : '.' ∉ name := by
      intro hm
      exact timeConst_noDot (timeConst_iff.2 hn) hm
    rw [if_pos ⟨rfl, hnd⟩, timeConst_iff.2 hn] at hl
    simp only [Out.ok.injEq] at hl
    subst hl
    exact h
  | literal hne hn hq h =>
    unfold decodeLayout at hl
    rw [if_neg hne, if_neg (fun hx => hn ⟨prefix_take.1 hx.1, hx.2⟩), literalText_iff.2 hq] at hl
    simp only [Out.ok.injEq] at hl
    subst hl
    exact h

theorem uuidExtr_complete {M : Nat → Methods} {json s : Str} {b : List UInt8} (h : ReadsUUID s b) (i : Nat)
    (fld : GoVal) : runExtr M (.uuid json) i (.str s) fld = .ok (.done (.ok (.uuid b)) fld) := by
  simp [runExtr, JV.getStr, parseUUID_iff.2 h]

theorem storage_sliceCells {old z : GoVal} {len : Nat} {cells : List GoVal} (h : Storage old len z cells) :
    ∃ fresh, sliceCells len z old = .ok (fresh, cells) ∧ len ≤ cells.length := by
  cases h with
  | fromNil => exact ⟨true, rfl, by simp⟩
  | grow h => exact ⟨true, by simp [sliceCells, h], by simp⟩
  | reuse h => exact ⟨false, by simp [sliceCells]; omega, by simp; omega⟩

/-! ### loops -/

theorem sliceLoop_complete {F : Nat → Nat → JV → GoVal → Out Cell}
    (hF : ∀ K K' i a c, K ≤ K' → F K i a c ⊑ F K' i a c) :
    ∀ {l : List JV} {i : Nat} {cells news : List GoVal}, l.length ≤ cells.length → news.length = l.length →
      (∀ (j : Nat) (a : JV) (c w : GoVal), l[j]? = some a → cells[j]? = some c → news[j]? = some w →
        ∃ K, F K (i + j) a c = .ok (.store w)) →
      ∃ K, sliceLoop (F K) i l cells = .ok (.fin, i + l.length, news ++ cells.drop l.length)
  | [], i, cells, news, hc, hn, h => by
    have : news = [] := List.length_eq_zero_iff.1 hn
    subst this
    exact ⟨0, by simp [sliceLoop]⟩
  | a :: l, i, [], news, hc, hn, h => by simp at hc
  | a :: l, i, c :: cells, [], hc, hn, h => by simp at hn
  | a :: l, i, c :: cells, w :: news, hc, hn, h => by
    obtain ⟨K1, h1⟩ := h 0 a c w (by simp) (by simp) (by simp)
    obtain ⟨K2, h2⟩ := sliceLoop_complete hF (l := l) (i := i + 1) (cells := cells) (news := news) (by simpa using hc)
      (by simpa using hn) (fun j a' c' w' ha hc hw => by
        have := h (j + 1) a' c' w' (by simpa using ha) (by simpa using hc) (by simpa using hw)
        rw [show i + (j + 1) = i + 1 + j by omega] at this
        exact this)
    refine ⟨max K1 K2, ?_⟩
    have h1' := (hF K1 (max K1 K2) (i + 0) a c (by omega)).eq_of_ok h1
    have h2' := (sliceLoop_mono (fun i a c => hF K2 (max K1 K2) i a c (by omega)) l (i + 1) cells).eq_of_ok h2
    simp only [Nat.add_zero] at h1'
    simp only [sliceLoop, h1', Out.ok_bind, h2', Out.pure_eq, List.length_cons, List.drop_succ_cons, List.cons_append]
    rw [show i + 1 + l.length = i + (l.length + 1) by omega]

theorem mapLoop_complete {Γ : Env} {star : Bool} {val : TExpr} {x : Extr} :
    ∀ {kvs : List (Str × JV)} {m : List (Str × GoVal)} {news : List GoVal}, news.length = kvs.length →
      (∀ (j : Nat) (key : Str) (a : JV) (w : GoVal), kvs[j]? = some (key, a) → news[j]? = some w →
        (star = true ∧ a = .null ∧ w = .nil) ∨
        (¬ (star = true ∧ a = .null) ∧ ∃ K w0 fld w1, runExtr (Γ.methods K) x 0 a .nil = .ok (.done (.ok w0) fld) ∧
          convT (Γ.methods K) val w0 = .ok w1 ∧ w = if star then .ptr w1 else w1)) →
      ∃ K, mapLoop (Γ.methods K) star val (fun v => runExtr (Γ.methods K) x 0 v .nil) kvs m =
        .ok (none, setAll m ((kvs.map (·.1)).zip news))
  | [], m, news, hn, h => ⟨0, by
    have : news = [] := List.length_eq_zero_iff.1 hn
    subst this
    simp [mapLoop, setAll]⟩
  | (key, a) :: kvs, m, [], hn, h => by simp at hn
  | (key, a) :: kvs, m, w :: news, hn, h => by
    obtain ⟨K2, h2⟩ := mapLoop_complete (star := star) (val := val) (x := x) (m := mapSet key w m) (kvs := kvs) (news := news)
      (by simpa using hn)
      (fun j k a' w' hk hw => h (j + 1) k a' w' (by simpa using hk) (by simpa using hw))
    rcases h 0 key a w (by simp) (by simp) with ⟨hs, rfl, rfl⟩ | ⟨hnn, K1, w0, fld, w1, h3, h4, h5⟩
    · refine ⟨K2, ?_⟩
      simp only [mapLoop, hs, JV.isNull, Bool.and_self, if_true, List.map_cons, List.zip_cons_cons, setAll_cons]
      rw [← h2, hs]
    · refine ⟨max K1 K2, ?_⟩
      have h3' := runExtr_lift (K' := max K1 K2) (by omega) h3
      have h4' := convT_lift (K' := max K1 K2) (by omega) h4
      have h2' := (mapLoop_mono (methods_mono Γ (show K2 ≤ max K1 K2 by omega))
        (fun v => runExtr_mono (methods_mono Γ (show K2 ≤ max K1 K2 by omega)) x 0 v .nil) star val kvs (mapSet key w m)).eq_of_ok h2
      have hc : (star && a.isNull) = false := by
        cases star
        · rfl
        · cases a <;> simp_all [JV.isNull]
      simp only [mapLoop, hc, Bool.false_eq_true, if_false, h3', Out.ok_bind, h4', List.map_cons, List.zip_cons_cons,
        setAll_cons]
      rw [← h5]
      exact h2'

/-! ### the main lemma -/

/-- what the template for `f` does when `Decodes` applies -/
def ExtrComplete (Γ : Env) (f : Fld) (r : TVGen) : Prop :=
  (∀ (v : JV) (fld new : GoVal), Decodes Γ f.tags.layout f.expr v fld new →
    ((f.hasField = true ∧ f.isStar = false) ∨ ∀ n, ¬ Calls Γ f.expr n) → ∀ i, ∃ K val fld',
      runExtr (Γ.methods K) r.x i v fld = .ok (.done (.ok val) fld') ∧
      (r.filled = true → fld' = new) ∧ (r.filled = false → convT (Γ.methods K) f.expr val = .ok new)) ∧
  (∀ (v : JV) (w : GoVal), DecodesNew Γ f.tags.layout f.expr v w → r.filled = false → ∀ i fld, ∃ K val fld',
      runExtr (Γ.methods K) r.x i v fld = .ok (.done (.ok val) fld') ∧ convT (Γ.methods K) f.expr val = .ok w)

theorem fills_calls {Γ : Env} {e : TExpr} {n : Nat} (hc : Calls Γ e n) {v : JV} {x w : GoVal}
    (h : Fills Γ n v x none w) : ∃ K, fillT (Γ.methods K) e v x = .ok (none, w) := by
  obtain ⟨K, h⟩ := h
  cases hc <;> exact ⟨K, h⟩

theorem calls_unique {Γ : Env} {e : TExpr} {n m : Nat} (h : Calls Γ e n) (h' : Calls Γ e m) : n = m := by
  cases h <;> cases h' <;> rfl

theorem nested_complete {Γ : Env} {f : Fld} {n : Nat} (hc : Calls Γ f.expr n) :
    ExtrComplete Γ f ⟨(nestedExtraction f).1, (nestedExtraction f).2, false⟩ := by
  constructor
  · intro v fld new hd hmode i
    have hmode' : f.hasField = true ∧ f.isStar = false := by
      rcases hmode with h | h
      · exact h
      · exact absurd hc (h n)
    have hf : Fills Γ n v fld none new := by
      obtain ⟨T, hT⟩ : ∃ T, resolve2 Γ (resolve Γ f.expr) = T := ⟨_, rfl⟩
      have hcf := calls_final hc
      rw [hT] at hcf
      rcases decodes_kind hd hT with ⟨p, h, _⟩ | ⟨h, _⟩ | ⟨h, _⟩ | ⟨_, m, hm, h⟩ | ⟨h, _⟩ | ⟨_, h, _⟩ | ⟨_, h, _⟩ | ⟨_, _, h, _⟩ |
        ⟨_, h, _⟩ | ⟨_, _, h, _⟩
      case inr.inr.inr.inl => rw [calls_unique hc hm]; exact h
      all_goals (rw [h] at hcf; simp at hcf)
    have hne : nestedExtraction f = (.nestedInPlace f.expr, true) := by
      simp [nestedExtraction, hmode'.1, hmode'.2]
    rw [hne]
    obtain ⟨K, hK⟩ := fills_calls hc hf
    exact ⟨K, new, new, by simp [runExtr, hK, Out.ok_bind], by simp, by simp⟩
  · intro v w hd hnf i fld
    have hne : nestedExtraction f = (.nestedFresh f.expr, false) := by
      unfold nestedExtraction at hnf ⊢
      split
      · rfl
      · rename_i h; rw [if_neg h] at hnf; simp at hnf
    rw [hne]
    cases hd with
    | call hc' hz hfill hconv =>
      rename_i m z w0
      obtain rfl := calls_unique hc hc'
      obtain ⟨K1, h1⟩ := hz
      obtain ⟨K2, h2⟩ := fills_calls hc hfill
      obtain ⟨K3, h3⟩ := hconv
      have h1' : zeroT (Γ.methods K1) f.expr = .ok z := by
        clear h2
        generalize f.expr = e at hc
        cases hc <;> exact h1
      have h3' : convT (Γ.methods K3) f.expr w0 = .ok w := by
        clear h2 h1'
        generalize f.expr = e at hc
        cases hc <;> exact h3
      refine ⟨max K1 (max K2 K3), w0, fld, ?_, convT_lift (by omega) h3'⟩
      simp only [runExtr, zeroT_lift (show K1 ≤ max K1 (max K2 K3) by omega) h1', Out.ok_bind,
        fillT_lift (show K2 ≤ max K1 (max K2 K3) by omega) h2, Out.pure_eq]
    | other ht _ => exact absurd hc (ht n)

/-- completeness of a value template, from completeness on places -/
theorem extrComplete_of {Γ : Env} {f : Fld} {r : TVGen} (hnf : r.filled = false) (hnc : ∀ n, ¬ Calls Γ f.expr n)
    (h : ∀ (v : JV) (fld new : GoVal), Decodes Γ f.tags.layout f.expr v fld new → ∀ i, ∃ K val fld',
      runExtr (Γ.methods K) r.x i v fld = .ok (.done (.ok val) fld') ∧ convT (Γ.methods K) f.expr val = .ok new) :
    ExtrComplete Γ f r := by
  constructor
  · intro v fld new hd _ i
    obtain ⟨K, val, fld', h1, h2⟩ := h v fld new hd i
    exact ⟨K, val, fld', h1, by simp [hnf], fun _ => h2⟩
  · intro v w hd _ i fld
    cases hd with
    | call hc => exact absurd hc (hnc _)
    | other _ hd => exact h v fld w (hd fld) i

theorem elemRound_complete {Γ : Env} {nullable brk : Bool} {st : ElemStore} {x : Extr} {i : Nat} {a : JV} {c w : GoVal}
    (h : (nullable = true ∧ a = .null ∧ w = .nil) ∨
      (¬ (nullable = true ∧ a = .null) ∧ ∃ K val c', runExtr (Γ.methods K) x i a c = .ok (.done (.ok val) c') ∧
        storeElem (Γ.methods K) st val c' = .ok w)) :
    ∃ K, elemRound (Γ.methods K) nullable brk st (runExtr (Γ.methods K) x) i a c = .ok (.store w) := by
  rcases h with ⟨h1, rfl, rfl⟩ | ⟨h1, K, val, c', h2, h3⟩
  · exact ⟨0, by simp [elemRound, h1, JV.isNull]⟩
  · have hc : (nullable && a.isNull) = false := by
      cases nullable
      · rfl
      · cases a <;> simp_all [JV.isNull]
    exact ⟨K, by simp [elemRound, hc, h2, h3, Out.ok_bind]⟩

theorem extr_complete {Γ : Env} : ∀ {k : Nat} {f : Fld} {path : PathE} {r : TVGen},
    typedValue Γ k f path = .ok r → f.refx = resolve Γ f.expr → r.isStarType = false → ExtrComplete Γ f r := by
  intro k
  induction k with
  | zero => intro f path r hg; simp [typedValue] at hg
  | succ k ih =>
    intro f path r hg href hns
    have hk := kind_final Γ f.expr
    have hdk := fun v fld new (h : Decodes Γ f.tags.layout f.expr v fld new) => decodes_kind h (T := resolve2 Γ f.refx) (by rw [href])
    have hnc := @not_calls_of_kind Γ f.expr (resolve2 Γ f.refx) (by rw [href])
    rw [← href] at hk
    unfold typedValue at hg
    simp only [resolve2_def] at hg
    generalize resolve2 Γ f.refx = T at hk hg hnc hdk
    cases T with
    | prim p =>
      obtain ⟨x, hx, hr⟩ := Out.bind_eq_ok.1 hg
      simp only [Out.pure_eq, Out.ok.injEq] at hr
      subst hr
      have hp : PrimName Γ f.expr p := by
        cases hk with
        | prim h => exact h
        | call h hT => simp at hT
        | is _ h1 => exact absurd rfl (h1 p)
      refine extrComplete_of rfl (hnc (by simp) (by simp) (by simp)) ?_
      intro v fld new hd i
      have hpd : PrimDec p v new := by
        rcases hdk v fld new hd with ⟨p', h, h'⟩ | ⟨h, _⟩ | ⟨h, _⟩ | ⟨h, _⟩ | ⟨h, _⟩ | ⟨_, h, _⟩ | ⟨_, h, _⟩ | ⟨_, _, h, _⟩ |
          ⟨_, h, _⟩ | ⟨_, _, h, _⟩
        case inl => cases h; exact h'
        all_goals simp at h
      obtain ⟨val, h1, h2⟩ := primExtraction_complete (M := Γ.methods 2) hx hpd i fld
      exact ⟨2, val, fld, h1, by rw [← h2]; exact convT_primName_ok hp val⟩
    | named m =>
      simp only [Out.ok.injEq] at hg; subst hg
      cases hk with
      | call h hT => exact nested_complete h
      | is _ _ h2 => exact absurd rfl (h2 m)
    | sel m =>
      simp only [Out.ok.injEq] at hg; subst hg
      cases hk with
      | call h hT => exact nested_complete h
      | is _ _ _ h3 => exact absurd rfl (h3 m)
    | structT =>
      simp only [Out.ok.injEq] at hg; subst hg
      cases hk with
      | call h hT => exact nested_complete h
      | structLit h =>
        have hno : ∀ v fld new, ¬ Decodes Γ f.tags.layout f.expr v fld new := by
          intro v fld new hd
          rcases hdk v fld new hd with ⟨p', h, h'⟩ | ⟨h, _⟩ | ⟨h, _⟩ | ⟨_, n, hc, _⟩ | ⟨h, _⟩ | ⟨_, h, _⟩ | ⟨_, h, _⟩ | ⟨_, _, h, _⟩ |
            ⟨_, h, _⟩ | ⟨_, _, h, _⟩
          case inr.inr.inr.inl => rw [h] at hc; cases hc
          all_goals simp at h
        constructor
        · intro v fld new hd; exact absurd hd (hno _ _ _)
        · intro v w hd
          cases hd with
          | call hc => rw [h] at hc; cases hc
          | other _ hd => exact absurd (hd .nil) (hno _ _ _)
      | is _ _ _ _ h4 => exact absurd rfl h4
    | star u =>
      obtain ⟨r', _, hr⟩ := Out.bind_eq_ok.1 hg
      simp only [Out.pure_eq, Out.ok.injEq] at hr
      subst hr
      simp at hns
    | time =>
      have hi : Is Γ f.expr .time := by
        cases hk with
        | is h => exact h
        | call h hT => simp at hT
      obtain ⟨lo, hl, hr⟩ := Out.bind_eq_ok.1 hg
      simp only [Out.pure_eq, Out.ok.injEq] at hr
      subst hr
      refine extrComplete_of rfl (hnc (by simp) (by simp) (by simp)) ?_
      intro v fld new hd i
      rcases hdk v fld new hd with ⟨p', h, h'⟩ | ⟨_, s, tm, rfl, rfl, ht⟩ | ⟨h, _⟩ | ⟨h, _⟩ | ⟨h, _⟩ | ⟨_, h, _⟩ | ⟨_, h, _⟩ |
        ⟨_, _, h, _⟩ | ⟨_, h, _⟩ | ⟨_, _, h, _⟩
      case inr.inl =>
        exact ⟨1, _, _, timeExtr_complete hl ht i fld, convT_is_ok hi (by simp) (by simp) (by simp) _⟩
      all_goals simp at h
    | uuid =>
      have hi : Is Γ f.expr .uuid := by
        cases hk with
        | is h => exact h
        | call h hT => simp at hT
      simp only [Out.ok.injEq] at hg; subst hg
      refine extrComplete_of rfl (hnc (by simp) (by simp) (by simp)) ?_
      intro v fld new hd i
      rcases hdk v fld new hd with ⟨p', h, h'⟩ | ⟨h, _⟩ | ⟨_, s, b, rfl, rfl, hb⟩ | ⟨h, _⟩ | ⟨h, _⟩ | ⟨_, h, _⟩ | ⟨_, h, _⟩ |
        ⟨_, _, h, _⟩ | ⟨_, h, _⟩ | ⟨_, _, h, _⟩
      case inr.inr.inl =>
        exact ⟨1, _, _, uuidExtr_complete hb i fld, convT_is_ok hi (by simp) (by simp) (by simp) _⟩
      all_goals simp at h
    | map mv =>
      have hi : Is Γ f.expr (.map mv) := by
        cases hk with
        | is h => exact h
        | call h hT => simp at hT
      simp only at hg
      split at hg
      · cases hg
      · obtain ⟨r', hr', hr⟩ := Out.bind_eq_ok.1 hg
        split at hr
        · cases hr
        · rename_i hns'
          have hns'' : r'.isStarType = false := by simpa using hns'
          have hel := prepare_expr Γ false mv f.tags false true
          have hstar := prepare_isStar Γ false mv f.tags true
          have htags : (Fld.prepare Γ false mv f.tags false true).tags = f.tags := rfl
          have hhf : (Fld.prepare Γ false mv f.tags false true).hasField = false := rfl
          have hrefx := prepare_resolve Γ false mv f.tags false true
          generalize Fld.prepare Γ false mv f.tags false true = el at hr' hr hel hstar htags hhf hrefx
          have hS : ExtrComplete Γ el r' := ih hr' hrefx hns''
          have hnf : r'.filled = false := by
            cases hfl : r'.filled with
            | false => rfl
            | true => have := (filled_spec hr' hfl).1; rw [hhf] at this; cases this
          have key : r = ⟨.map f.tags.jsonName el.isStar el.expr r'.x, false, false⟩ := by
            split at hr <;> first | (simp only [Out.pure_eq, Out.ok.injEq] at hr; exact hr.symm) | cases hr
          subst key
          refine extrComplete_of rfl (hnc (by simp) (by simp) (by simp)) ?_
          intro v fld new hd i
          rcases hdk v fld new hd with ⟨p', h, h'⟩ | ⟨h, _⟩ | ⟨h, _⟩ | ⟨h, _⟩ | ⟨h, _⟩ | ⟨_, h, _⟩ | ⟨_, h, _⟩ |
            ⟨_, _, h, _⟩ | ⟨val, h, kvs, m0, news, rfl, rfl, hold, hlen, hnull, helem⟩ | ⟨_, _, h, _⟩
          case inr.inr.inr.inr.inr.inr.inr.inr.inl =>
            cases h
            obtain ⟨K, hK⟩ := mapLoop_complete (Γ := Γ) (star := el.isStar) (val := el.expr) (x := r'.x) (m := m0) hlen (by
              intro j key a w hkv hw
              rcases hstar with ⟨hs, ht⟩ | ⟨hs, ht, hns⟩
              · by_cases ha : a = .null
                · subst ha
                  exact Or.inl ⟨hs, rfl, hnull j key w ⟨_, ht⟩ hkv hw⟩
                · right
                  refine ⟨fun h => ha h.2, ?_⟩
                  have hd := helem j key a w hkv hw (fun _ => ha)
                  rw [ht] at hd
                  cases hd with
                  | call hc => cases hc
                  | other _ hd =>
                    have := hd .nil
                    cases this with
                    | prim h => cases h with
                      | base h => cases h
                    | ptr hd2 =>
                      rw [← htags, ← hel] at hd2
                      obtain ⟨K, val, fld', h1, h2⟩ := hS.2 a _ hd2 hnf 0 .nil
                      exact ⟨K, val, fld', _, h1, h2, by simp [hs]⟩
                    | time h => cases h
                    | uuid h => cases h
                    | call h => cases h
                    | bytes h => cases h
                    | bytesNull h => cases h
                    | fixedBytes h => cases h
                    | fixedBytesNull h => cases h
                    | slice h => cases h
                    | array h => cases h
                    | map h => cases h
              · right
                refine ⟨by simp [hs], ?_⟩
                have hd := helem j key a w hkv hw (fun ⟨u, hu⟩ => absurd hu (hns u))
                rw [ht, ← hel, ← htags] at hd
                obtain ⟨K, val, fld', h1, h2⟩ := hS.2 a _ hd hnf 0 .nil
                exact ⟨K, val, fld', _, h1, h2, by simp [hs]⟩)
            refine ⟨max K 1, .map (setAll m0 ((kvs.map (·.1)).zip news)), ?_⟩
            have hK' := (mapLoop_mono (methods_mono Γ (show K ≤ max K 1 by omega))
              (fun v => runExtr_mono (methods_mono Γ (show K ≤ max K 1 by omega)) r'.x 0 v .nil) el.isStar el.expr kvs m0).eq_of_ok hK
            have hc := convT_lift (show 1 ≤ max K 1 by omega) (convT_is_ok hi (by simp) (by simp) (by simp)
              (.map (setAll m0 ((kvs.map (·.1)).zip news))))
            rcases hold with ⟨rfl, rfl⟩ | rfl
            · refine ⟨.nil, ?_, hc⟩
              simp only [runExtr, JV.getObj, Out.ok_bind, hK', Out.pure_eq]
              rfl
            · refine ⟨.map (setAll m0 ((kvs.map (·.1)).zip news)), ?_, hc⟩
              simp only [runExtr, JV.getObj, Out.ok_bind, hK', Out.pure_eq]
              rfl
          all_goals simp at h
    | slice elt =>
      have hi : Is Γ f.expr (.slice elt) := by
        cases hk with
        | is h => exact h
        | call h hT => simp at hT
      simp only at hg
      split at hg
      · rename_i hb
        obtain rfl := isByte_iff.1 hb
        simp only [Out.ok.injEq] at hg; subst hg
        refine extrComplete_of rfl (hnc (by simp) (by simp) (by simp)) ?_
        intro v fld new hd i
        rcases hdk v fld new hd with ⟨p', h, h'⟩ | ⟨h, _⟩ | ⟨h, _⟩ | ⟨h, _⟩ | ⟨_, hv⟩ | ⟨_, h, _⟩ | ⟨elt', h, hne, _⟩ |
          ⟨_, _, h, _⟩ | ⟨_, h, _⟩ | ⟨_, _, h, _⟩
        case inr.inr.inr.inr.inl =>
          refine ⟨1, new, fld, ?_, convT_is_ok hi (by simp) (by simp) (by simp) _⟩
          rcases hv with ⟨rfl, rfl⟩ | ⟨s, b, rfl, rfl, hb⟩
          · rfl
          · simp only [runExtr, bytesFill, JV.isNull, JV.getStr, Bool.false_eq_true, if_false]
            rw [base64_decode.1 hb]
            rfl
        case inr.inr.inr.inr.inr.inr.inl => cases h; exact absurd rfl hne
        all_goals simp at h
      · rename_i hb
        split at hg
        · cases hg
        · split at hg
          · cases hg
          · obtain ⟨r', hr', hr⟩ := Out.bind_eq_ok.1 hg
            split at hr
            · cases hr
            · rename_i hns'
              have hns'' : r'.isStarType = false := by simpa using hns'
              have hel := prepare_expr Γ true elt {} false false
              have hstar := prepare_isStar Γ true elt {} false
              have htags : (Fld.prepare Γ true elt {} false false).tags = {} := rfl
              have hhf : (Fld.prepare Γ true elt {} false false).hasField = true := rfl
              have hnu : (Fld.prepare Γ true elt {} false false).isNullable = elt.nullLike := by cases elt <;> rfl
              have hrefx := prepare_resolve Γ true elt {} false false
              generalize Fld.prepare Γ true elt {} false false = el at hr' hr hel hstar htags hhf hrefx hnu
              have hS : ExtrComplete Γ el r' := ih hr' hrefx hns''
              have key : r = ⟨.slice f.tags.jsonName elt el.isNullable r'.x (el.expr != .prim .string)
                  (if el.isStar then .ref el.expr else if r'.filled then .filled else .val el.expr), false, false⟩ := by
                split at hr
                · cases hr
                · simp only [Out.pure_eq, Out.ok.injEq] at hr; exact hr.symm
              subst key
              refine extrComplete_of rfl (hnc (by simp) (by simp) (by simp)) ?_
              intro v fld new hd i
              rcases hdk v fld new hd with ⟨p', h, h'⟩ | ⟨h, _⟩ | ⟨h, _⟩ | ⟨h, _⟩ | ⟨h, _⟩ | ⟨_, h, _⟩ |
                ⟨elt', h, hne, l, z, cells, news, rfl, rfl, hz, hst, hlen, hnull, helem⟩ |
                ⟨_, _, h, _⟩ | ⟨_, h, _⟩ | ⟨_, _, h, _⟩
              case inr.inr.inr.inr.inr.inr.inl =>
                cases h
                obtain ⟨fresh, hcells, hcl⟩ := storage_sliceCells hst
                obtain ⟨Kz, hz⟩ := hz
                obtain ⟨K, hK⟩ := sliceLoop_complete (F := fun K => elemRound (Γ.methods K) el.isNullable
                    (el.expr != .prim .string) (if el.isStar then .ref el.expr else if r'.filled then .filled else .val el.expr)
                    (runExtr (Γ.methods K) r'.x))
                  (fun K K' i a c hKK => elemRound_mono (methods_mono Γ hKK)
                    (fun i a c => runExtr_mono (methods_mono Γ hKK) r'.x i a c) _ _ _ i a c)
                  (l := l) (i := 0) (cells := cells) (news := news) hcl hlen (by
                    intro j a c w ha hc hw
                    apply elemRound_complete
                    by_cases hnn : elt.nullLike = true ∧ a = .null
                    · obtain ⟨h1, rfl⟩ := hnn
                      exact Or.inl ⟨hnu.trans h1, rfl, hnull j w h1 ha hw⟩
                    · right
                      refine ⟨by rw [hnu]; exact hnn, ?_⟩
                      have hd := helem j a c w ha hc hw (fun h1 h2 => hnn ⟨h1, h2⟩)
                      rcases hstar with ⟨hs, ht⟩ | ⟨hs, ht, _⟩
                      · rw [ht] at hd
                        have hnf : r'.filled = false := by
                          cases hfl : r'.filled with
                          | false => rfl
                          | true => have := (filled_spec hr' hfl).2; rw [hs] at this; cases this
                        rcases decodes_kind hd (is_resolve (.self _) (by simp) (by simp) (by simp)) with
                          ⟨p', h, h'⟩ | ⟨h, _⟩ | ⟨h, _⟩ | ⟨h, _⟩ | ⟨h, _⟩ | ⟨_, h, _⟩ | ⟨_, h, _⟩ | ⟨_, _, h, _⟩ | ⟨_, h, _⟩ |
                          ⟨u, w', h, rfl, hd'⟩
                        case inr.inr.inr.inr.inr.inr.inr.inr.inr =>
                          cases h
                          rw [← hel, show ([] : Str) = el.tags.layout by rw [htags]] at hd'
                          obtain ⟨K, val, fld', h1, h2⟩ := hS.2 a w' hd' hnf (0 + j) c
                          exact ⟨K, val, fld', h1, by simp [hs, storeElem, h2, Out.ok_bind]⟩
                        all_goals simp at h
                      · rw [ht, ← hel, show ([] : Str) = el.tags.layout by rw [htags]] at hd
                        obtain ⟨K, val, fld', h1, h2, h3⟩ := hS.1 a c w hd (Or.inl ⟨hhf, hs⟩) (0 + j)
                        refine ⟨K, val, fld', h1, ?_⟩
                        cases hfl : r'.filled with
                        | true => simp [hs, storeElem, h2 hfl]
                        | false => simp [hs, storeElem, h3 hfl])
                refine ⟨max (max K Kz) 1, .slice news (cells.drop l.length), fieldAfter fresh fld (news ++ cells.drop l.length), ?_,
                  convT_lift (by omega) (convT_is_ok hi (by simp) (by simp) (by simp) _)⟩
                have hK' := (sliceLoop_mono (fun i a c => elemRound_mono (methods_mono Γ (show K ≤ max (max K Kz) 1 by omega))
                    (fun i a c => runExtr_mono (methods_mono Γ (show K ≤ max (max K Kz) 1 by omega)) r'.x i a c) el.isNullable
                    (el.expr != .prim .string) (if el.isStar then .ref el.expr else if r'.filled then .filled else .val el.expr)
                    i a c) l 0 cells).eq_of_ok hK
                have hz' := zeroT_lift (show Kz ≤ max (max K Kz) 1 by omega) hz
                have hmk : mkSlice (0 + l.length) (news ++ cells.drop l.length) = .slice news (cells.drop l.length) := by
                  rw [Nat.zero_add, ← hlen]
                  simp [mkSlice]
                simp only [runExtr, JV.getArr, hz', Out.ok_bind, hcells, hK', Out.pure_eq, hmk]
              case inr.inr.inr.inr.inl => cases h; exact absurd rfl hb
              all_goals simp at h
    | array n elt =>
      have hi : Is Γ f.expr (.array n elt) := by
        cases hk with
        | is h => exact h
        | call h hT => simp at hT
      simp only at hg
      split at hg
      · rename_i hb
        obtain rfl := isByte_iff.1 hb
        simp only [Out.ok.injEq] at hg; subst hg
        refine extrComplete_of rfl (hnc (by simp) (by simp) (by simp)) ?_
        intro v fld new hd i
        rcases hdk v fld new hd with ⟨p', h, h'⟩ | ⟨h, _⟩ | ⟨h, _⟩ | ⟨h, _⟩ | ⟨h, _⟩ | ⟨n', h, hv⟩ | ⟨elt', h, hne, _⟩ |
          ⟨_, _, h, hne, _⟩ | ⟨_, h, _⟩ | ⟨_, _, h, _⟩
        case inr.inr.inr.inr.inr.inl =>
          cases h
          refine ⟨1, new, fld, ?_, convT_is_ok hi (by simp) (by simp) (by simp) _⟩
          rcases hv with ⟨rfl, rfl⟩ | ⟨s, b, rfl, rfl, hb, hbl⟩
          · rfl
          · simp only [runExtr, bytesFill, bytesVar, JV.isNull, JV.getStr, Bool.false_eq_true, if_false]
            rw [base64_decode.1 hb]
            simp [hbl, Out.ok_bind]
        case inr.inr.inr.inr.inr.inr.inr.inl => cases h; exact absurd rfl hne
        all_goals simp at h
      · rename_i hb
        split at hg
        · cases hg
        · rename_i hnn0
          obtain ⟨r', hr', hr⟩ := Out.bind_eq_ok.1 hg
          split at hr
          · cases hr
          · rename_i hns'
            simp only [Bool.or_eq_true, not_or, Bool.not_eq_true] at hns'
            obtain ⟨hnf, hns''⟩ := hns'
            have hel := prepare_expr Γ true elt {} false false
            have hstar := prepare_isStar Γ true elt {} false
            have htags : (Fld.prepare Γ true elt {} false false).tags = {} := rfl
            have hhf : (Fld.prepare Γ true elt {} false false).hasField = true := rfl
            have hnu : (Fld.prepare Γ true elt {} false false).isNullable = elt.nullLike := by cases elt <;> rfl
            have hrefx := prepare_resolve Γ true elt {} false false
            generalize Fld.prepare Γ true elt {} false false = el at hr' hr hel hstar htags hhf hrefx hnu hnn0
            have hS : ExtrComplete Γ el r' := ih hr' hrefx hns''
            have key : r = ⟨.array f.tags.jsonName n elt r'.x (el.expr != .prim .string) (.val el.expr), false, false⟩ := by
              split at hr <;> first | (simp only [Out.pure_eq, Out.ok.injEq] at hr; exact hr.symm) | cases hr
            subst key
            have hs : el.isStar = false ∧ elt = pointee elt := by
              rcases hstar with ⟨_, h⟩ | ⟨h, h', _⟩
              · rw [hnu, h] at hnn0; simp [TExpr.nullLike] at hnn0
              · exact ⟨h, h'⟩
            refine extrComplete_of rfl (hnc (by simp) (by simp) (by simp)) ?_
            intro v fld new hd i
            rcases hdk v fld new hd with ⟨p', h, h'⟩ | ⟨h, _⟩ | ⟨h, _⟩ | ⟨h, _⟩ | ⟨h, _⟩ | ⟨_, h, _⟩ | ⟨_, h, _⟩ |
              ⟨n', elt', h, hne, l, z, news, rfl, rfl, hz, hl, hlen, helem⟩ | ⟨_, h, _⟩ | ⟨_, _, h, _⟩
            case inr.inr.inr.inr.inr.inr.inr.inl =>
              cases h
              obtain ⟨Kz, hz⟩ := hz
              obtain ⟨K, hK⟩ := sliceLoop_complete (F := fun K => elemRound (Γ.methods K) false
                  (el.expr != .prim .string) (.val el.expr) (runExtr (Γ.methods K) r'.x))
                (fun K K' i a c hKK => elemRound_mono (methods_mono Γ hKK)
                  (fun i a c => runExtr_mono (methods_mono Γ hKK) r'.x i a c) _ _ _ i a c)
                (l := l) (i := 0) (cells := List.replicate n z) (news := news) (by simp; omega) (by omega) (by
                  intro j a c w ha hc hw
                  apply elemRound_complete
                  right
                  refine ⟨by simp, ?_⟩
                  have hcz : c = z := by
                    rw [List.getElem?_replicate] at hc
                    split at hc
                    · cases hc; rfl
                    · cases hc
                  subst hcz
                  have hd := helem j a w ha hw
                  rw [hs.2, ← hel, show ([] : Str) = el.tags.layout by rw [htags]] at hd
                  obtain ⟨K, val, fld', h1, h2, h3⟩ := hS.1 a c w hd (Or.inl ⟨hhf, hs.1⟩) (0 + j)
                  exact ⟨K, val, fld', h1, by simp [storeElem, h3 hnf]⟩)
              refine ⟨max (max K Kz) 1, .arr news, fld, ?_,
                convT_lift (by omega) (convT_is_ok hi (by simp) (by simp) (by simp) _)⟩
              have hK' := (sliceLoop_mono (fun i a c => elemRound_mono (methods_mono Γ (show K ≤ max (max K Kz) 1 by omega))
                  (fun i a c => runExtr_mono (methods_mono Γ (show K ≤ max (max K Kz) 1 by omega)) r'.x i a c) false
                  (el.expr != .prim .string) (.val el.expr) i a c) l 0 (List.replicate n z)).eq_of_ok hK
              have hz' := zeroT_lift (show Kz ≤ max (max K Kz) 1 by omega) hz
              rw [hl, List.drop_of_length_le (by simp), List.append_nil] at hK'
              simp only [runExtr, JV.getArr, hl, ne_eq, not_true_eq_false, if_false, hz', Out.ok_bind, hK', Out.pure_eq]
            case inr.inr.inr.inr.inr.inl => cases h; exact absurd rfl hb
            all_goals simp at h

end VJ
