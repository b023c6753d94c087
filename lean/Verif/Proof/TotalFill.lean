import Verif.Proof.Total

/-!
# Every template ends, with values of the right types
-/

namespace VJ
set_option linter.unusedSectionVars false
set_option linter.unusedSimpArgs false

variable {Γ : Env} {X : Nat → GoVal → Prop} {S : Nat → Prop} {B : Prop} [Ext]

/-- with enough nested calls the computation ends: with a result in `P`, or, if `B`, in a panic -/
def Closes (B : Prop) {α : Type} (o : Nat → Out α) (P : α → Prop) : Prop :=
  Term o P ∨ (B ∧ ∃ k0, ∀ k, k0 ≤ k → o k = .panic)

theorem Term.ends {α : Type} {o : Nat → Out α} {P : α → Prop} (h : Term o P) : Closes B o P := Or.inl h

namespace Closes
variable {α β : Type}

omit [Ext] in
theorem pure {P : α → Prop} {a : α} (h : P a) : Closes B (fun _ => .ok a) P := Or.inl (.pure h)

omit [Ext] in
theorem bind {o : Nat → Out α} {f : Nat → α → Out β} {P : α → Prop} {Q : β → Prop} (h : Closes B o P)
    (hf : ∀ a, P a → Closes B (fun k => f k a) Q) : Closes B (fun k => o k >>= f k) Q := by
  rcases h with ⟨a, ha, k1, h1⟩ | ⟨hB, k1, h1⟩
  · rcases hf a ha with ⟨b, hb, k2, h2⟩ | ⟨hB, k2, h2⟩
    · exact Or.inl ⟨b, hb, max k1 k2, fun k hk => by
        show (o k >>= f k) = _
        rw [h1 k (by omega), Out.ok_bind]; exact h2 k (by omega)⟩
    · exact Or.inr ⟨hB, max k1 k2, fun k hk => by
        show (o k >>= f k) = _
        rw [h1 k (by omega), Out.ok_bind]; exact h2 k (by omega)⟩
  · exact Or.inr ⟨hB, k1, fun k hk => by
      show (o k >>= f k) = _
      rw [h1 k hk]; rfl⟩

omit [Ext] in
theorem imp {o : Nat → Out α} {P Q : α → Prop} (h : Closes B o P) (hi : ∀ a, P a → Q a) : Closes B o Q :=
  h.imp_left fun h => h.imp hi

omit [Ext] in
theorem succ {o o' : Nat → Out α} {P : α → Prop} (h : Closes B o P) (he : ∀ k, o' (k + 1) = o k) : Closes B o' P := by
  rcases h with h | ⟨hB, k0, hk⟩
  · exact Or.inl (h.succ he)
  · refine Or.inr ⟨hB, k0 + 1, fun k h => ?_⟩
    obtain ⟨k, rfl⟩ : ∃ j, k = j + 1 := ⟨k - 1, by omega⟩
    rw [he, hk k (by omega)]

omit [Ext] in
theorem congr {o o' : Nat → Out α} {P : α → Prop} (h : Closes B o P) (k1 : Nat) (he : ∀ k, k1 ≤ k → o' k = o k) : Closes B o' P := by
  rcases h with h | ⟨hB, k0, hk⟩
  · exact Or.inl (h.congr k1 he)
  · exact Or.inr ⟨hB, max k0 k1, fun k h => by rw [he k (by omega), hk k (by omega)]⟩

end Closes

/-- if a fixed-length byte array in the type gets too long a text from the document, then `B` -/
def Guards (Γ : Env) (B : Prop) (t : TExpr) (v : JV) : Prop := Overflows Γ t v → B

theorem Guards.elem {t : TExpr} {l : List JV} {v : JV} (h : Guards Γ B (.slice t) (.arr l)) (hv : v ∈ l) : Guards Γ B t v := fun o => h (.slice hv o)
theorem Guards.cell {t : TExpr} {n : Nat} {l : List JV} {v : JV} (h : Guards Γ B (.array n t) (.arr l)) (hv : v ∈ l) : Guards Γ B t v :=
  fun o => h (.array hv o)
theorem Guards.member {t : TExpr} {l : List (Str × JV)} {kv : Str × JV} (h : Guards Γ B (.map t) (.obj l)) (hv : kv ∈ l) : Guards Γ B t kv.2 :=
  fun o => h (.map hv o)
theorem Guards.is {t u : TExpr} {v : JV} (h : Guards Γ B t v) (hi : Is Γ t u) : Guards Γ B u v := by
  cases hi with
  | self => exact h
  | named hd => exact fun o => h (.alias (.named _) hd o)
theorem Guards.pointee {t : TExpr} {v : JV} (h : Guards Γ B t v) : Guards Γ B (pointee t) v := by
  cases t <;> first | exact h | exact fun o => h (.star o)
theorem Guards.name {e e' : TExpr} {n : Nat} {v : JV} (h : Guards Γ B e v) (he : NameOf e n) (he' : NameOf e' n) : Guards Γ B e' v := by
  intro o
  cases o with
  | alias hn hd o => rw [he'.inj hn] at he; exact h (.alias he hd o)
  | field hn hd hf hk hk' hw o => rw [he'.inj hn] at he; exact h (.field he hd hf hk hk' hw o)
  | inline hn hd hf hk o => rw [he'.inj hn] at he; exact h (.inline he hd hf hk o)
  | _ => cases he'

theorem get_mem {v w : JV} {key : Str} (h : v.get key = some w) : ∃ kvs, v = .obj kvs ∧ ∃ kv ∈ kvs, kv.2 = w := by
  cases v with
  | obj kvs =>
    refine ⟨kvs, rfl, ?_⟩
    simp only [JV.get] at h
    induction kvs with
    | nil => simp [JV.lookup] at h
    | cons kv kvs ih =>
      obtain ⟨k, u⟩ := kv
      simp only [JV.lookup] at h
      split at h
      · simp at h; exact ⟨(k, u), by simp, h⟩
      · obtain ⟨kv, h1, h2⟩ := ih h
        exact ⟨kv, by simp [h1], h2⟩
  | _ => simp [JV.get] at h

/-- filling a fixed-length array from a document that fits -/
theorem fixed_fill {v : JV} {n : Nat} (hv : Guards Γ B (.array n (.prim .byte)) v) {old : List UInt8} (ho : old.length = n) :
    (B ∧ bytesFill (some n) v (.barr old) = .panic) ∨ ∃ e b, bytesFill (some n) v (.barr old) = .ok (e, .barr b) ∧ b.length = n := by
  simp only [bytesFill]
  split
  · exact Or.inr ⟨_, _, rfl, ho⟩
  · cases hs : v.getStr with
    | error c => exact Or.inr ⟨_, _, rfl, ho⟩
    | ok s =>
      have : v = .str s := by
        cases v <;> simp [JV.getStr] at hs
        rw [hs]
      subst this
      by_cases hle : n < (b64Decode s).1.length
      · exact Or.inl ⟨hv (.bytes hle), by simp only; rw [if_pos hle]⟩
      · simp only
        rw [if_neg hle]
        have hl : ((b64Decode s).1 ++ old.drop (b64Decode s).1.length).length = n := by simp; omega
        split
        · exact Or.inr ⟨_, _, rfl, hl⟩
        · split
          · exact Or.inr ⟨_, _, rfl, hl⟩
          · exact Or.inr ⟨_, _, rfl, hl⟩

/-- the template works on the field or cell itself -/
def Extr.usesPlace : Extr → Bool
  | .nestedInPlace _ | .slice _ _ _ _ _ _ | .map _ _ _ _ => true
  | _ => false

def Extr.isChecked : Extr → Bool
  | .strChecked _ => true
  | _ => false

/-- calling the decode method of `m` on `v` ends -/
def CallOK (Γ : Env) (X : Nat → GoVal → Prop) (B : Prop) (m : Nat) (v : JV) : Prop :=
  Guards Γ B (.named m) v → ∀ old, HasType Γ X (.named m) old → Closes B (fun k => (Γ.methods k m).fill v old) (fun r => HasType Γ X (.named m) r.2)

def PlaceOK (Γ : Env) (X : Nat → GoVal → Prop) (t : TExpr) (x : Extr) (fld fld' : GoVal) : Prop :=
  (x.usesPlace = true → HasType Γ X t fld') ∧ (x.usesPlace = false → fld' = fld)

/-- what is known about the end of a template for type `t`; `b`: it filled the place -/
def TVok (Γ : Env) (X : Nat → GoVal → Prop) (B : Prop) (t : TExpr) (x : Extr) (b : Bool) (fld : GoVal) : TV → Prop
  | .ret _ fld' => x.simple = false ∧ PlaceOK Γ X t x fld fld'
  | .done (.error _) fld' => x.isChecked = false ∧ PlaceOK Γ X t x fld fld'
  | .done (.ok val) fld' => PlaceOK Γ X t x fld fld' ∧
      (b = false → Closes B (fun k => convT (Γ.methods k) t val) (HasType Γ X t))

theorem PlaceOK.same {t : TExpr} {x : Extr} {fld : GoVal} (h : x.usesPlace = false) : PlaceOK Γ X t x fld fld :=
  ⟨fun h' => (by rw [h] at h'; cases h'), fun _ => rfl⟩

theorem PlaceOK.typed {t : TExpr} {x : Extr} {fld fld' : GoVal} (h : x.usesPlace = true) (ht : HasType Γ X t fld') :
    PlaceOK Γ X t x fld fld' := ⟨fun _ => ht, fun h' => (by rw [h] at h'; cases h')⟩

/-! ### predeclared types -/

theorem primExtr_ok {t : TExpr} {dc : Bool} {path : PathE} {p : Prim} {x : Extr} (hx : primExtraction dc path p = .ok x)
    (ht : ∀ v, PrimTyped p (p.conv v) → Closes B (fun k => convT (Γ.methods k) t v) (HasType Γ X t)) (i : Nat) (v : JV) (fld : GoVal) :
    Closes B (fun k => runExtr (Γ.methods k) x i v fld) (TVok Γ X B t x false fld) := by
  have hint : ∀ i : Int, p.isWhole = true → PrimTyped p (p.conv (.int i)) := by
    intro i hp
    have : p.conv (.int i) = .int (p.wrap i) := by cases p <;> rfl
    rw [this]
    exact .int hp (Prim.wrap_range _)
  have hI : p.isWhole = true → x = .int → Closes B (fun k => runExtr (Γ.methods k) x i v fld) (TVok Γ X B t x false fld) := by
    rintro hp rfl
    simp only [runExtr]
    refine .pure ?_
    cases h : v.getInt with
    | error c => exact ⟨rfl, .same rfl⟩
    | ok j => exact ⟨.same rfl, fun _ => ht _ (hint j hp)⟩
  have hU : p.isWhole = true → x = .uint → Closes B (fun k => runExtr (Γ.methods k) x i v fld) (TVok Γ X B t x false fld) := by
    rintro hp rfl
    simp only [runExtr]
    refine .pure ?_
    cases h : v.getUint with
    | error c => exact ⟨rfl, .same rfl⟩
    | ok j => exact ⟨.same rfl, fun _ => ht _ (hint j hp)⟩
  have hF : (∀ f, PrimTyped p (p.conv (.float f))) → x = .float → Closes B (fun k => runExtr (Γ.methods k) x i v fld) (TVok Γ X B t x false fld) := by
    rintro hp rfl
    simp only [runExtr]
    refine .pure ?_
    cases h : v.getFloat with
    | error c => exact ⟨rfl, .same rfl⟩
    | ok j => exact ⟨.same rfl, fun _ => ht _ (hp j)⟩
  cases p <;> simp only [primExtraction, Out.ok.injEq, reduceCtorEq] at hx
  case float32 => exact hF (fun f => .float32 _) hx.symm
  case float64 => exact hF (fun f => .float64 _) hx.symm
  case bool =>
    subst hx
    simp only [runExtr]
    refine .pure ?_
    cases h : v.getBool with
    | error c => exact ⟨rfl, .same rfl⟩
    | ok j => exact ⟨.same rfl, fun _ => ht _ (.bool _)⟩
  case string =>
    cases dc
    · simp only [Bool.false_eq_true, if_false] at hx
      subst hx
      simp only [runExtr]
      cases h : v.getStr with
      | error c => exact .pure ⟨rfl, .same rfl⟩
      | ok j => exact .pure ⟨.same rfl, fun _ => ht _ (.string _)⟩
    · simp only [if_true] at hx
      subst hx
      simp only [runExtr]
      refine .pure ?_
      cases h : v.getStr with
      | error c => exact ⟨rfl, .same rfl⟩
      | ok j => exact ⟨.same rfl, fun _ => ht _ (.string _)⟩
  all_goals first | exact hI rfl hx.symm | exact hU rfl hx.symm

/-! ### loops -/

def CellOK (P : GoVal → Prop) : Cell → Prop
  | .store v | .ret _ v | .brk _ v => P v

/-- a loop over enough cells ends, and every cell stays a value of the element type -/
theorem sliceLoop_term {P : GoVal → Prop} {f : Nat → Nat → JV → GoVal → Out Cell} : ∀ (l : List JV) (i : Nat) (cells : List GoVal),
    (∀ a ∈ l, ∀ i c, P c → Closes B (fun k => f k i a c) (CellOK P)) → l.length ≤ cells.length → (∀ c ∈ cells, P c) →
    Closes B (fun k => sliceLoop (f k) i l cells) (fun r => (∀ c ∈ r.2.2, P c) ∧ r.2.2.length = cells.length)
  | [], i, cells, _, _, hc => by
    simp only [sliceLoop]
    exact .pure ⟨hc, rfl⟩
  | a :: as, i, [], _, hl, _ => by simp at hl
  | a :: as, i, c :: cs, hf, hl, hc => by
    simp only [sliceLoop]
    refine (hf a (by simp) i c (hc c (by simp))).bind fun cell hcell => ?_
    cases cell with
    | ret e w =>
      refine .pure ⟨?_, by simp⟩
      intro c' hc'
      rcases List.mem_cons.1 hc' with rfl | h
      · exact hcell
      · exact hc c' (by simp [h])
    | brk e w =>
      refine .pure ⟨?_, by simp⟩
      intro c' hc'
      rcases List.mem_cons.1 hc' with rfl | h
      · exact hcell
      · exact hc c' (by simp [h])
    | store w =>
      have ih := sliceLoop_term (P := P) (f := f) as (i + 1) cs (fun a ha => hf a (by simp [ha])) (by simpa using hl)
        (fun c' h => hc c' (by simp [h]))
      refine ih.bind fun r hr => ?_
      obtain ⟨s, n, cs'⟩ := r
      refine .pure ⟨?_, by simpa using hr.2⟩
      intro c' hc'
      rcases List.mem_cons.1 hc' with rfl | h
      · exact hcell
      · exact hr.1 c' h

theorem mapSet_typed {P : GoVal → Prop} {key : Str} {w : GoVal} (hw : P w) : ∀ (m : List (Str × GoVal)),
    (∀ kv ∈ m, P kv.2) → ∀ kv ∈ mapSet key w m, P kv.2
  | [], _, kv, h => by simp [mapSet] at h; subst h; exact hw
  | (k, u) :: m, hm, kv, h => by
    simp only [mapSet] at h
    split at h
    · rcases List.mem_cons.1 h with rfl | h
      · exact hw
      · exact hm kv (by simp [h])
    · rcases List.mem_cons.1 h with rfl | h
      · exact hm (k, u) (by simp)
      · exact mapSet_typed hw m (fun kv' h' => hm kv' (by simp [h'])) kv h

theorem mapSet_mem_keys {key k : Str} {w : GoVal} : ∀ (m : List (Str × GoVal)),
    k ∈ (mapSet key w m).map (·.1) → k = key ∨ k ∈ m.map (·.1)
  | [], h => by simp [mapSet] at h; exact Or.inl h
  | (k', u) :: m, h => by
    simp only [mapSet] at h
    split at h
    · exact Or.inr (by simpa using h)
    · rcases List.mem_cons.1 (by simpa using h : k ∈ k' :: (mapSet key w m).map (·.1)) with rfl | h
      · exact Or.inr (by simp)
      · rcases mapSet_mem_keys m h with h | h
        · exact Or.inl h
        · exact Or.inr (List.mem_cons_of_mem _ h)

theorem mapSet_nodup {key : Str} {w : GoVal} : ∀ (m : List (Str × GoVal)),
    (m.map (·.1)).Nodup → ((mapSet key w m).map (·.1)).Nodup
  | [], _ => by simp [mapSet]
  | (k, u) :: m, h => by
    simp only [mapSet]
    split
    · exact h
    · rename_i hne
      simp only [List.map_cons, List.nodup_cons] at h ⊢
      refine ⟨fun hm => ?_, mapSet_nodup m h.2⟩
      rcases mapSet_mem_keys m hm with h' | h'
      · exact hne h'
      · exact h.1 h'

/-- the result of a template in a map loop: no return from the closure -/
theorem mapLoop_term {val : TExpr} {star : Bool} {f : Nat → JV → Out TV} : ∀ (kvs : List (Str × JV)) (m : List (Str × GoVal)),
    (∀ kv ∈ kvs, Closes B (fun k => f k kv.2) (fun r => match r with
      | .ret _ _ => False
      | .done (.error _) _ => True
      | .done (.ok w) _ => Closes B (fun k => convT (Γ.methods k) val w) (HasType Γ X val))) →
    (m.map (·.1)).Nodup → (∀ kv ∈ m, HasType Γ X (if star then .star val else val) kv.2) →
    Closes B (fun k => mapLoop (Γ.methods k) star val (f k) kvs m)
      (fun r => (r.2.map (·.1)).Nodup ∧ ∀ kv ∈ r.2, HasType Γ X (if star then .star val else val) kv.2)
  | [], m, _, hn, hm => by
    simp only [mapLoop]
    exact .pure ⟨hn, hm⟩
  | (key, v) :: rest, m, hf, hn, hm => by
    simp only [mapLoop]
    split
    · rename_i hs
      refine mapLoop_term rest _ (fun kv h => hf kv (by simp [h])) (mapSet_nodup m hn) (mapSet_typed ?_ m hm)
      simp only [Bool.and_eq_true] at hs
      rw [hs.1]
      exact .nilPtr _
    · refine (hf (key, v) (by simp)).bind fun r hr => ?_
      match r, hr with
      | .done (.error e) _, _ => exact .pure ⟨hn, hm⟩
      | .done (.ok w) _, hr =>
        refine hr.bind fun w' hw' => ?_
        refine mapLoop_term rest _ (fun kv h => hf kv (by simp [h])) (mapSet_nodup m hn) (mapSet_typed ?_ m hm)
        cases star
        · exact hw'
        · exact .ptr hw'

/-! ### templates -/

theorem Plan.checked {f : Fld} {path : PathE} {x : Extr} {b : Bool} (h : Plan Γ f path x b) (he : IsPrim Γ f.expr .string)
    (hd : f.dontCheckErr = false) : x.isChecked = true := by
  have no : ∀ u, Is Γ f.expr u → (∀ n, u ≠ .named n) → (∀ n, u ≠ .sel n) → ∃ p, u = .prim p := by
    intro u hu hn1 hn2
    generalize f.expr = e at he hu
    cases hu with
    | self =>
      cases he with
      | self => exact ⟨_, rfl⟩
      | named hd => exact absurd rfl (hn1 _)
      | sel hd => exact absurd rfl (hn2 _)
    | named hd => cases he with | named hd' => rw [hd] at hd'; cases hd'; exact ⟨_, rfl⟩
  have noc : ∀ n, ¬ Calls Γ f.expr n := by
    intro n hc
    generalize f.expr = e at he hc
    cases hc with
    | struct h | structLit h | foreign h => cases he with | named hd' => rw [h] at hd'; cases hd'
    | name h hu hp => cases he with | named hd' => rw [h] at hd'; cases hd'; cases hu
    | sel hp => exact hp _ he
  cases h with
  | @prim _ _ p _ h hx =>
    have : p = .string := by
      generalize f.expr = e at he h
      cases h with
      | base h => exact isPrim_unique h he
      | chain hd h => cases he with | named hd' => rw [hd] at hd'; cases hd'; cases h; rfl
    subst this
    rw [hd] at hx; simp [primExtraction] at hx; subst hx; rfl
  | fresh h | inPlace h => exact absurd h (noc _)
  | anon h => rw [h] at he; cases he
  | time h | uuid h | bytes h | fixedBytes h | slice h | array h | map h => obtain ⟨p, hp⟩ := no _ h (by simp) (by simp); cases hp

theorem Plan.filled {f : Fld} {path : PathE} {x : Extr} (h : Plan Γ f path x true) (he : f.expr.anon = false) :
    x.usesPlace = true := by
  cases h with
  | inPlace h => rfl
  | anon h => rw [h] at he; cases he

theorem Plan.noPlace {f : Fld} {path : PathE} {x : Extr} {b : Bool} (h : Plan Γ f path x b) (he : f.expr.anon = false)
    (hf : f.hasField = false) (hs : f.isStar = false ∨ x.simple = true) : x.usesPlace = false := by
  cases h with
  | prim h hx => exact prim_noPlace hx
  | fresh h => rfl
  | inPlace h hf' => rw [hf] at hf'; cases hf'.1
  | anon h => rw [h] at he; cases he
  | time | uuid | bytes | fixedBytes | array => rfl
  | slice h _ _ hf' =>
    rw [hf] at hf'
    rcases hf' with h' | h'
    · cases h'.1
    · rcases hs with hs | hs
      · rw [h'.2] at hs; cases hs
      · cases hs
  | map h hf' => rw [hf] at hf'; cases hf'.1
where
  prim_noPlace {dc : Bool} {path : PathE} {p : Prim} {x : Extr} (hx : primExtraction dc path p = .ok x) : x.usesPlace = false := by
    cases p <;> simp only [primExtraction, Out.ok.injEq, reduceCtorEq] at hx <;> first
      | (subst hx; rfl)
      | (cases dc <;> simp at hx <;> subst hx <;> rfl)

theorem pointee_nameOf {t : TExpr} {n : Nat} (h : Calls Γ t n) : NameOf t n := by
  cases h <;> first | exact .named _ | exact .sel _

theorem sizeOf_mem {l : List JV} {a : JV} (h : a ∈ l) : sizeOf a < sizeOf (JV.arr l) := by
  have := List.sizeOf_lt_of_mem h
  simp only [JV.arr.sizeOf_spec]; omega

theorem sizeOf_member {l : List (Str × JV)} {kv : Str × JV} (h : kv ∈ l) : sizeOf kv.2 < sizeOf (JV.obj l) := by
  have := List.sizeOf_lt_of_mem h
  obtain ⟨a, b⟩ := kv
  simp only [JV.obj.sizeOf_spec, Prod.mk.sizeOf_spec] at *; omega

theorem getArr_ok {v : JV} {l : List JV} (h : v.getArr = .ok l) : v = .arr l := by
  cases v <;> simp [JV.getArr] at h; subst h; rfl

theorem getObj_ok {v : JV} {l : List (Str × JV)} (h : v.getObj = .ok l) : v = .obj l := by
  cases v <;> simp [JV.getObj] at h; subst h; rfl

theorem unhex_length : ∀ {s : Str} {b : List UInt8}, unhexBytes s = some b → s.length = 2 * b.length
  | [], b, h => by simp [unhexBytes] at h; subst h; rfl
  | [_], b, h => by simp [unhexBytes] at h
  | a :: c :: rest, b, h => by
    simp only [unhexBytes] at h
    split at h
    · rename_i bs _ _ hr
      simp only [Option.some.injEq] at h
      subst h
      have := unhex_length hr
      simp only [List.length_cons, this]; omega
    · cases h

theorem uuid36_length {s : Str} {b : List UInt8} (hs : s.length = 36) (h : parseUUID36 s = some b) : b.length = 16 := by
  unfold parseUUID36 at h
  split at h
  · have := unhex_length h
    simp only [List.length_append, List.length_take, List.length_drop, hs] at this
    omega
  · cases h

theorem uuid_length {s : Str} {b : List UInt8} (h : parseUUID s = some b) : b.length = 16 := by
  unfold parseUUID at h
  split at h
  · cases h
  split at h
  · exact uuid36_length (by assumption) h
  · split at h
    · split at h
      · exact uuid36_length (by simp; omega) h
      · cases h
    · split at h
      · exact uuid36_length (by simp; omega) h
      · split at h
        · have := unhex_length h; omega
        · cases h

/-- the storage of a slice is always large enough for the loop -/
theorem sliceCells_term {elt : TExpr} {z fld : GoVal} (hb : elt ≠ .prim .byte) (hz : HasType Γ X elt z)
    (hf : HasType Γ X (.slice elt) fld) (l : Nat) :
    ∃ fresh cells, sliceCells l z fld = .ok (fresh, cells) ∧ l ≤ cells.length ∧ (∀ c ∈ cells, HasType Γ X elt c) ∧
      ∀ cells' : List GoVal, (∀ c ∈ cells', HasType Γ X elt c) → HasType Γ X (.slice elt) (fieldAfter fresh fld cells') := by
  have hrep : ∀ c ∈ List.replicate l z, HasType Γ X elt c := fun c hc => by rw [List.eq_of_mem_replicate hc]; exact hz
  rcases hf.slice_cases hb with rfl | ⟨es, sp, rfl, h1, h2⟩
  · exact ⟨true, _, rfl, by simp, hrep, fun _ _ => .nilSlice _⟩
  · simp only [sliceCells]
    split
    · exact ⟨true, _, rfl, by simp, hrep, fun _ _ => hf⟩
    · refine ⟨false, _, rfl, by simp; omega, ?_, ?_⟩
      · intro c hc
        rcases List.mem_append.1 hc with h | h
        · exact h1 c h
        · exact h2 c h
      · intro cells' hc
        exact .slice hb (fun c h => hc c (List.mem_of_mem_take h)) (fun c h => hc c (List.mem_of_mem_drop h))

theorem mkSlice_typed {elt : TExpr} (hb : elt ≠ .prim .byte) {n : Nat} {cells : List GoVal} (hc : ∀ c ∈ cells, HasType Γ X elt c) :
    HasType Γ X (.slice elt) (mkSlice n cells) :=
  .slice hb (fun c h => hc c (List.mem_of_mem_take h)) (fun c h => hc c (List.mem_of_mem_drop h))

/-- one round of a slice loop -/
theorem elemRound_term {elt : TExpr} {x : Extr} {b nullable brk : Bool} {st : ElemStore} {a : JV} {i : Nat} {c : GoVal}
    (hn : nullable = true → HasType Γ X elt .nil)
    (hst : st = elemStore elt b) (hbrk : brk = false → x.isChecked = true) (hfill : b = true → x.usesPlace = true)
    (hc : HasType Γ X elt c)
    (hstar : (∃ u, elt = .star u) → x.usesPlace = false)
    (hx : Closes B (fun k => runExtr (Γ.methods k) x i a c) (TVok Γ X B (pointee elt) x b c)) :
    Closes B (fun k => elemRound (Γ.methods k) nullable brk st (runExtr (Γ.methods k) x) i a c) (CellOK (HasType Γ X elt)) := by
  have hplace : ∀ c', PlaceOK Γ X (pointee elt) x c c' → HasType Γ X elt c' := by
    intro c' hp
    cases hu : x.usesPlace with
    | false => rw [hp.2 hu]; exact hc
    | true =>
      have := hp.1 hu
      cases elt with
      | star u => rw [hstar ⟨u, rfl⟩] at hu; cases hu
      | _ => exact this
  simp only [elemRound]
  split
  · rename_i h
    simp only [Bool.and_eq_true] at h
    exact .pure (hn h.1)
  · refine hx.bind fun tv htv => ?_
    match tv, htv with
    | .ret e c', h => exact .pure (hplace c' h.2)
    | .done (.error e) c', h =>
      cases hb : brk with
      | false => have := hbrk hb; rw [h.1] at this; cases this
      | true => exact .pure (hplace c' h.2)
    | .done (.ok val) c', h =>
      refine Closes.bind (P := HasType Γ X elt) ?_ fun w hw => .pure hw
      subst hst
      cases elt with
      | star u =>
        simp only [elemStore, storeElem]
        have hbf : b = false := by
          cases hb : b with
          | false => rfl
          | true => have := hfill hb; rw [hstar ⟨u, rfl⟩] at this; cases this
        exact (h.2 hbf).bind fun w hw => .pure (.ptr hw)
      | _ =>
        simp only [elemStore, storeElem]
        cases b with
        | true => exact .pure (hplace c' h.1)
        | false => exact h.2 rfl

theorem extr_term (hP : Package Γ X S) {f : Fld} {path : PathE} {x : Extr} {b : Bool}
    (hp : Plan Γ f path x b) : Good S f.expr → ∀ (v : JV) (i : Nat) (fld : GoVal),
    Guards Γ B f.expr v → (x.usesPlace = true → HasType Γ X f.expr fld) → (∀ m, NameOf f.expr m → CallOK Γ X B m v) →
    (∀ m w, S m → sizeOf w < sizeOf v → CallOK Γ X B m w) →
    Closes B (fun k => runExtr (Γ.methods k) x i v fld) (TVok Γ X B f.expr x b fld) := by
  induction hp with
  | prim h hx => exact fun _ v i fld _ _ _ _ => primExtr_ok hx (fun w hw => (conv_primName h hw).ends) i v fld
  | @fresh f path n h hf =>
    intro hpl v i fld hfit _ hcall _
    simp only [runExtr]
    refine (hP.zeroT hpl).ends.bind fun z hz => ?_
    have hn := pointee_nameOf h
    have := hcall _ hn (hfit.name hn (.named _)) z (hz.name hn (.named _))
    refine Closes.bind (P := fun r => HasType Γ X f.expr r.2) ?_ fun r hr => ?_
    · have := this.imp (Q := fun r => HasType Γ X f.expr r.2) fun r hr => HasType.name (.named _) hn hr
      generalize f.expr = e at hn this
      cases hn <;> exact this
    · obtain ⟨e, w⟩ := r
      refine .pure ?_
      cases e with
      | some e => exact ⟨rfl, .same rfl⟩
      | none => exact ⟨.same rfl, fun _ => (hP.conv hr hpl).ends⟩
  | @inPlace f path n h hf =>
    intro hpl v i fld hfit hfld hcall _
    simp only [runExtr]
    have hn := pointee_nameOf h
    have := hcall _ hn (hfit.name hn (.named _)) fld ((hfld rfl).name hn (.named _))
    refine Closes.bind (P := fun r => HasType Γ X f.expr r.2) ?_ fun r hr => ?_
    · have := this.imp (Q := fun r => HasType Γ X f.expr r.2) fun r hr => HasType.name (.named _) hn hr
      generalize f.expr = e at hn this
      cases hn <;> exact this
    · obtain ⟨e, w⟩ := r
      refine .pure ?_
      cases e with
      | some e => exact ⟨rfl, .typed rfl hr⟩
      | none => exact ⟨.typed rfl hr, by simp⟩
  | anon h => intro hpl; have := hpl.noAnon; rw [h] at this; cases this
  | @time f path l h hl =>
    intro hpl v i fld hfit _ _ _
    simp only [runExtr]
    cases v.getStr with
    | error c => exact .pure ⟨rfl, .same rfl⟩
    | ok s =>
      simp only
      refine .pure ?_
      have key : ∀ r : Option Time, TVok Γ X B f.expr (.time f.tags.jsonName l) false fld
          (.done (match r with | some t => .ok (.time t) | none => .error (.plain (.badTime s))) fld) := by
        rintro (_ | t)
        · exact ⟨rfl, .same rfl⟩
        · exact ⟨.same rfl, fun _ => (hP.conv ((HasType.time t).is h) hpl).ends⟩
      cases l with
      | none => exact key _
      | some l => exact key _
  | uuid h =>
    intro hpl v i fld hfit _ _ _
    simp only [runExtr]
    cases v.getStr with
    | error c => exact .pure ⟨rfl, .same rfl⟩
    | ok s =>
      simp only
      refine .pure ?_
      cases hu : parseUUID s with
      | none => exact ⟨rfl, .same rfl⟩
      | some t => exact ⟨.same rfl, fun _ => (hP.conv ((HasType.uuid (uuid_length hu)).is h) hpl).ends⟩
  | bytes h =>
    intro hpl v i fld hfit _ _ _
    simp only [runExtr, bytesFill, bytesVar]
    have hnil : HasType Γ X _ .nil := (HasType.nilSlice (.prim .byte)).is h
    cases hv : v.isNull with
    | true =>
      simp only [if_true, Out.ok_bind]
      exact .pure ⟨.same rfl, fun _ => (hP.conv hnil hpl).ends⟩
    | false =>
      simp only [Bool.false_eq_true, if_false]
      cases v.getStr with
      | error c => exact .pure ⟨rfl, .same rfl⟩
      | ok s =>
        simp only
        split
        · exact .pure ⟨.same rfl, fun _ => (hP.conv ((HasType.bytes _).is h) hpl).ends⟩
        · exact .pure ⟨rfl, .same rfl⟩
  | @fixedBytes f path n h =>
    intro hpl v i fld hfit _ _ _
    simp only [runExtr, bytesVar]
    rcases fixed_fill (hfit.is h) (old := List.replicate n 0) (by simp) with ⟨hB, hb⟩ | ⟨e, b, hb, hl⟩
    · simp only [hb]
      exact Or.inr ⟨hB, 0, fun _ _ => rfl⟩
    simp only [hb, Out.ok_bind]
    cases e with
    | some e => exact .pure ⟨rfl, .same rfl⟩
    | none => exact .pure ⟨.same rfl, fun _ => (hP.conv ((HasType.barr hl).is h) hpl).ends⟩
  | @slice f path elt x b h hb ha hf hx ih =>
    intro hpl v i fld hfit hfld _ hsub
    have hel : Good S elt := (hpl.is hP h).slice
    have hpe : (Fld.prepare Γ true elt {} false false).expr = pointee elt := prepare_expr ..
    rw [hpe] at ih
    simp only [runExtr]
    cases hv : v.getArr with
    | error c => exact .pure ⟨rfl, .typed rfl (hfld rfl)⟩
    | ok l =>
      obtain rfl := getArr_ok hv
      refine (hP.zeroT hel).ends.bind fun z hz => ?_
      obtain ⟨fresh, cells, hcells, hlen, htc, hafter⟩ := sliceCells_term hb hz ((hfld rfl).of_is h) l.length
      simp only [hcells, Out.ok_bind]
      refine Closes.bind (sliceLoop_term (P := HasType Γ X elt) l 0 cells ?_ hlen htc) fun r hr => ?_
      · intro a ha' j c hc
        have hstar : (∃ u, elt = .star u) → x.usesPlace = false := by
          rintro ⟨u, rfl⟩
          refine star_noPlace hx ?_ rfl
          rw [hpe]; exact hel.noAnon
        refine elemRound_term (b := b) (fun hn => HasType.nil hn ha hel.noAnon) rfl ?_ ?_ hc hstar ?_
        · intro hbk
          have hstr : pointee elt = .prim .string := by simpa using hbk
          exact hx.checked (by rw [hpe, hstr]; exact .self _) rfl
        · intro hbt
          subst hbt
          exact hx.filled (by rw [hpe]; exact hel.pointee.noAnon)
        · refine ih hel.pointee a j c ((hfit.is h).elem ha').pointee ?_ ?_ ?_
          · intro hu
            cases elt with
            | star u => rw [hstar ⟨u, rfl⟩] at hu; cases hu
            | _ => exact hc
          · intro m hm
            exact hsub m a (hel.pointee.name hm) (sizeOf_mem ha')
          · intro m w hm hw
            exact hsub m w hm (Nat.lt_trans hw (sizeOf_mem ha'))
      · obtain ⟨stop, n, cells'⟩ := r
        have hft := (hafter cells' hr.1).is h
        have hval := (hP.conv ((mkSlice_typed (n := n) hb hr.1).is h) hpl).ends (B := B)
        cases stop with
        | fin => exact .pure ⟨.typed rfl hft, fun _ => hval⟩
        | ret e => exact .pure ⟨rfl, .typed rfl hft⟩
        | brk e =>
          simp only
          split
          · exact .pure ⟨.typed rfl hft, fun _ => hval⟩
          · exact .pure ⟨rfl, .typed rfl hft⟩
  | @array f path elt n x h hb hnl hx ih =>
    intro hpl v i fld hfit _ _ hsub
    have hel : Good S elt := (hpl.is hP h).array
    have hpt := nullLike_pointee hnl
    have hpe : (Fld.prepare Γ true elt {} false false).expr = elt := by rw [prepare_expr, hpt]
    rw [hpe] at ih
    simp only [runExtr]
    cases hv : v.getArr with
    | error c => exact .pure ⟨rfl, .same rfl⟩
    | ok l =>
      obtain rfl := getArr_ok hv
      simp only
      split
      · exact .pure ⟨rfl, .same rfl⟩
      · rename_i hll
        have hll : l.length = n := by simpa using hll
        refine (hP.zeroT hel).ends.bind fun z hz => ?_
        have hrep : ∀ c ∈ List.replicate n z, HasType Γ X elt c := fun c hc => by rw [List.eq_of_mem_replicate hc]; exact hz
        refine Closes.bind (sliceLoop_term (P := HasType Γ X elt) l 0 (List.replicate n z) ?_ (by simp [hll]) hrep) fun r hr => ?_
        · intro a ha' j c hc
          have hstar : (∃ u, elt = .star u) → x.usesPlace = false := by
            rintro ⟨u, rfl⟩; cases hnl
          have hst : ElemStore.val elt = elemStore elt false := by cases elt <;> first | rfl | cases hnl
          refine elemRound_term (b := false) (by simp) hst ?_ (by simp) hc hstar ?_
          · intro hbk
            have hstr : elt = .prim .string := by simpa using hbk
            exact hx.checked (by rw [hpe, hstr]; exact .self _) rfl
          · rw [hpt]
            refine ih hel a j c ((hfit.is h).cell ha') (fun _ => hc) ?_ ?_
            · intro m hm
              exact hsub m a (hel.name hm) (sizeOf_mem ha')
            · intro m w hm hw
              exact hsub m w hm (Nat.lt_trans hw (sizeOf_mem ha'))
        · obtain ⟨stop, n', cells'⟩ := r
          have hval := (hP.conv ((HasType.array hb (by simpa using hr.2) hr.1).is h) hpl).ends (B := B)
          cases stop with
          | fin => exact .pure ⟨.same rfl, fun _ => hval⟩
          | ret e => exact .pure ⟨rfl, .same rfl⟩
          | brk e =>
            simp only
            split
            · exact .pure ⟨.same rfl, fun _ => hval⟩
            · exact .pure ⟨rfl, .same rfl⟩
  | @map f path val x b h hf hs hx ih =>
    intro hpl v i fld hfit hfld _ hsub
    have hvl : Good S val := (hpl.is hP h).map
    have hpe : (Fld.prepare Γ false val f.tags false true).expr = pointee val := prepare_expr ..
    rw [hpe] at ih
    have hnp : x.usesPlace = false := hx.noPlace (by rw [hpe]; exact hvl.pointee.noAnon) rfl (Or.inr hs)
    have hbf : b = false := by
      cases b with
      | false => rfl
      | true => rw [hx.filled (by rw [hpe]; exact hvl.pointee.noAnon)] at hnp; cases hnp
    simp only [runExtr]
    cases hv : v.getObj with
    | error c => exact .pure ⟨rfl, .typed rfl (hfld rfl)⟩
    | ok kvs =>
      obtain rfl := getObj_ok hv
      have hval : val = if (val != pointee val) = true then TExpr.star (pointee val) else pointee val := by
        by_cases hst : ∃ u, val = .star u
        · rw [if_pos (star_ne_pointee.2 hst)]; obtain ⟨u, rfl⟩ := hst; rfl
        · rw [if_neg (fun h' => hst (star_ne_pointee.1 h'))]
          cases val <;> first | rfl | exact absurd ⟨_, rfl⟩ hst
      refine Closes.bind (P := fun m0 => (m0.1.map (·.1)).Nodup ∧ (∀ kv ∈ m0.1, HasType Γ X val kv.2) ∧ (m0.2 = true → fld = .nil))
        ?_ fun m0 hm0 => ?_
      · rcases ((hfld rfl).of_is h).map_cases with rfl | ⟨m, rfl, h1, h2⟩
        · exact .pure ⟨by simp, by simp, fun _ => rfl⟩
        · exact .pure ⟨h1, h2, by simp⟩
      obtain ⟨m0, fl⟩ := m0
      obtain ⟨hnd, hty, hnil⟩ := hm0
      refine Closes.bind (mapLoop_term (X := X) (Γ := Γ) (val := pointee val) (star := val != pointee val) kvs m0 ?_ hnd ?_) fun r hr => ?_
      · intro kv hkv
        refine (ih hvl.pointee kv.2 0 .nil ((hfit.is h).member hkv).pointee (fun h' => by rw [hnp] at h'; cases h') ?_ ?_).imp fun tv htv => ?_
        · intro m hm
          exact hsub m kv.2 (hvl.pointee.name hm) (sizeOf_member hkv)
        · intro m w hm hw
          exact hsub m w hm (Nat.lt_trans hw (sizeOf_member hkv))
        · match tv, htv with
          | .ret e c', h' => exact absurd hs (by rw [show x.simple = false from h'.1]; simp)
          | .done (.error e) c', h' => trivial
          | .done (.ok w) c', h' => exact h'.2 hbf
      · rw [← hval]; exact hty
      · obtain ⟨e, m⟩ := r
        rw [← hval] at hr
        have hmt : HasType Γ X (.map val) (.map m) := .map hr.1 hr.2
        have hft : HasType Γ X f.expr (if fl = true then fld else .map m) := by
          cases fl with
          | true => rw [if_pos rfl, hnil rfl]; exact (HasType.nilMap val).is h
          | false => exact hmt.is h
        cases e with
        | none => exact .pure ⟨.typed rfl hft, fun _ => (hP.conv (hmt.is h) hpl).ends⟩
        | some e => exact .pure ⟨rfl, .typed rfl hft⟩
where
  star_noPlace {f : Fld} {path : PathE} {x : Extr} {b : Bool} (h : Plan Γ f path x b) (he : f.expr.anon = false)
      (hs : f.isStar = true) (hf : f.hasField = true := by rfl) : x.usesPlace = false := by
    cases h with
    | prim h hx => exact Plan.noPlace.prim_noPlace hx
    | fresh h => rfl
    | inPlace h hf' => rw [hs] at hf'; cases hf'.2
    | anon h => rw [h] at he; cases he
    | time | uuid | bytes | fixedBytes | array => rfl
    | slice h _ _ hf' =>
      rw [hf, hs] at hf'
      rcases hf' with h' | h'
      · cases h'.2
      · cases h'.1
    | map h hf' => rw [hs] at hf'; cases hf'.2

/-! ### fields -/

theorem isPrim_of_refx {t : TExpr} {tags : Tags} {p : Prim} (h : (Fld.prepare Γ true t tags false false).refx = .prim p) :
    IsPrim Γ (pointee t) p := by
  have := prepare_resolve Γ true t tags false false
  rw [h, prepare_expr] at this
  rcases resolve_cases (Γ := Γ) (pointee t) with ⟨q, h2, h3⟩ | ⟨_, h2, _⟩
  · rw [← this] at h2; cases h2; exact h3
  · exact absurd this.symm (h2 p)

theorem Plan.star_noPlace {f : Fld} {path : PathE} {x : Extr} {b : Bool} (h : Plan Γ f path x b) (he : f.expr.anon = false)
    (hs : f.isStar = true) (hf : f.hasField = true) : x.usesPlace = false :=
  extr_term.star_noPlace h he hs hf

/-- what the statements of a field leave before and after the assignment -/
def FieldTV (Γ : Env) (X : Nat → GoVal → Prop) (B : Prop) (t : TExpr) (f : FieldFill) : TV → Prop
  | .ret _ fld' => HasType Γ X t fld'
  | .done (.error _) fld' => f.check = true ∧ HasType Γ X t fld'
  | .done (.ok val) fld' => HasType Γ X t fld' ∧ Closes B (fun k => storeField (Γ.methods k) f.store val fld') (HasType Γ X t)

theorem field_extr_term (hP : Package Γ X S) {k : Nat} {fd : FieldDecl} {f : FieldFill}
    (hg : genFieldFill Γ k fd = .ok (some f)) (hpl : Good S fd.typ) {v : JV} (hfit : Guards Γ B fd.typ v) {g : GoVal} (hgt : HasType Γ X fd.typ g)
    (hcall : ∀ m, NameOf (pointee fd.typ) m → CallOK Γ X B m v)
    (hsub : ∀ m w, S m → sizeOf w < sizeOf v → CallOK Γ X B m w) :
    Closes B (fun K => runExtr (Γ.methods K) f.x 0 v g) (FieldTV Γ X B fd.typ f) := by
  obtain ⟨_, _, r, _, _, _, _, _, hck, _⟩ := genFieldFill_some hg
  have hplan := field_plan hg
  have hpe : (Fld.prepare Γ true fd.typ fd.tags false false).expr = pointee fd.typ := prepare_expr ..
  have hchk : (∀ (b : Bool), Plan Γ (Fld.prepare Γ true fd.typ fd.tags false false) (.const fd.tags.jsonName) f.x b →
      f.x.isChecked = false → f.check = true) := by
    intro b hp hx
    cases hc : f.check with
    | true => rfl
    | false =>
      rw [hc] at hck
      have : (Fld.prepare Γ true fd.typ fd.tags false false).refx = .prim .string := by simpa using hck.symm
      have := hp.checked (by rw [hpe]; exact isPrim_of_refx this) rfl
      rw [hx] at this; cases this
  generalize hso : f.store = st at hplan
  generalize hx : f.x = x at hplan hchk ⊢
  cases hplan with
  | @ptr t ht h =>
    have hnp : x.usesPlace = false := h.star_noPlace (by rw [hpe]; exact hpl.pointee.noAnon) (by rw [ht]; rfl) rfl
    have hty : pointee fd.typ = t := by rw [ht]; rfl
    refine (extr_term hP h (by rw [hpe]; exact hpl.pointee) v 0 g (by rw [hpe]; exact hfit.pointee) (fun h' => by rw [hnp] at h'; cases h')
      (by rw [hpe]; exact hcall) hsub).imp fun tv htv => ?_
    match tv, htv with
    | .ret e c, h' => show HasType Γ X fd.typ c; rw [h'.2.2 hnp]; exact hgt
    | .done (.error e) c, h' => exact ⟨hchk _ h h'.1, by rw [h'.2.2 hnp]; exact hgt⟩
    | .done (.ok val) c, h' =>
      refine ⟨by rw [h'.1.2 hnp]; exact hgt, ?_⟩
      rw [hso]
      have := h'.2 rfl
      rw [hpe, hty] at this
      rw [ht]
      exact this.bind fun w hw => .pure (.ptr hw)
  | @filled ht h =>
    have hnp : x.usesPlace = true := h.filled (by rw [hpe]; exact hpl.pointee.noAnon)
    have hty : pointee fd.typ = fd.typ := by
      cases h : fd.typ <;> first | rfl | exact absurd h (ht _)
    rw [hty] at hpe
    refine (extr_term hP h (by rw [hpe]; exact hpl) v 0 g (by rw [hpe]; exact hfit) (fun h' => by rw [hpe]; exact hgt)
      (by rw [hpe, ← hty]; exact hcall) hsub).imp fun tv htv => ?_
    rw [hpe] at htv
    match tv, htv with
    | .ret e c, h' => exact h'.2.1 hnp
    | .done (.error e) c, h' => exact ⟨hchk _ h h'.1, h'.2.1 hnp⟩
    | .done (.ok val) c, h' =>
      refine ⟨h'.1.1 hnp, ?_⟩
      rw [hso]
      exact .pure (h'.1.1 hnp)
  | @val ht h =>
    have hty : pointee fd.typ = fd.typ := by
      cases h : fd.typ <;> first | rfl | exact absurd h (ht _)
    rw [hty] at hpe
    have hplace : ∀ c, PlaceOK Γ X fd.typ x g c → HasType Γ X fd.typ c := by
      intro c hc
      cases hu : x.usesPlace with
      | true => exact hc.1 hu
      | false => rw [hc.2 hu]; exact hgt
    refine (extr_term hP h (by rw [hpe]; exact hpl) v 0 g (by rw [hpe]; exact hfit) (fun h' => by rw [hpe]; exact hgt)
      (by rw [hpe, ← hty]; exact hcall) hsub).imp fun tv htv => ?_
    rw [hpe] at htv
    match tv, htv with
    | .ret e c, h' => exact hplace c h'.2
    | .done (.error e) c, h' => exact ⟨hchk _ h h'.1, hplace c h'.2⟩
    | .done (.ok val) c, h' =>
      refine ⟨hplace c h'.1, ?_⟩
      rw [hso]
      exact h'.2 rfl
  | @named t u h hx' hu =>
    subst hu
    have hnp : x.usesPlace = false := by
      rcases hx' with ⟨p, _, hp⟩ | ⟨_, l, _, rfl⟩ | ⟨_, rfl⟩
      · exact Plan.noPlace.prim_noPlace hp
      · rfl
      · rfl
    have hck' : f.check = true := by
      cases hc : f.check with
      | true => rfl
      | false =>
        rw [hc] at hck
        have hr : (Fld.prepare Γ true fd.typ fd.tags false false).refx = .prim .string := by simpa using hck.symm
        have := isPrim_of_refx hr
        generalize pointee fd.typ = e at h this
        cases h with
        | self => cases this
        | named hd => cases this with | named hd' => rw [hd] at hd'; cases hd'
    have hplain : Good S (.star u) := hpl.pointee.is hP h
    have key : Closes B (fun k => runExtr (Γ.methods k) x 0 v g) (TVok Γ X B u x false g) := by
      rcases hx' with ⟨p, hip, hp⟩ | ⟨rfl, l, hl, rfl⟩ | ⟨rfl, rfl⟩
      · exact primExtr_ok hp (fun w hw => (conv_isPrim hip hw).ends) 0 v g
      · exact extr_term hP (f := Fld.prepare Γ true .time fd.tags false false) (path := .index) (.time (.self _) hl)
          hplain.star v 0 g (by nofun) (by simp [Extr.usesPlace]) (fun m hm => nomatch hm) hsub
      · exact extr_term hP (f := Fld.prepare Γ true .uuid fd.tags false false) (path := .index) (.uuid (.self _))
          hplain.star v 0 g (by nofun) (by simp [Extr.usesPlace]) (fun m hm => nomatch hm) hsub
    refine key.imp fun tv htv => ?_
    match tv, htv with
    | .ret e c, h' => show HasType Γ X fd.typ c; rw [h'.2.2 hnp]; exact hgt
    | .done (.error e) c, h' => exact ⟨hck', by rw [h'.2.2 hnp]; exact hgt⟩
    | .done (.ok val) c, h' =>
      refine ⟨by rw [h'.1.2 hnp]; exact hgt, ?_⟩
      rw [hso]
      have hcv := h'.2 rfl
      by_cases hs : ∃ s, fd.typ = .star s
      · obtain ⟨s, hs⟩ := hs
        rw [if_pos (star_ne_pointee.2 ⟨s, hs⟩), hs]
        rw [hs] at h
        exact hcv.bind fun w hw => .pure (.ptr ((HasType.ptr hw).is h))
      · rw [if_neg (fun h' => hs (star_ne_pointee.1 h'))]
        have hty : pointee fd.typ = fd.typ := by
          cases h : fd.typ <;> first | rfl | exact absurd ⟨_, h⟩ hs
        rw [hty] at h
        exact hcv.bind fun w hw => .pure ((HasType.ptr hw).is h)

theorem primLiteral_typed {p : Prim} {text : Str} {v : GoVal} (h : PrimLiteral p text v) : PrimTyped p v := by
  cases h with
  | int hp _ hr => exact .int (by cases p <;> first | rfl | cases hp) hr
  | string _ => exact .string _
  | boolTrue | boolFalse => exact .bool _
  | float64 => exact .float64 _
  | float32 => exact .float32 _

theorem default_typed {t : TExpr} {text : Str} {v : GoVal} (h : DefaultValue Γ t text v) : HasType Γ X t v := by
  induction h with
  | prim ht h => exact .isPrim ht (primLiteral_typed h)
  | ptr _ ih => exact .ptr ih
  | named hn _ ih => exact .alias (.named _) hn ih

theorem sizeOf_get {v w : JV} {key : Str} (h : v.get key = some w) : sizeOf w < sizeOf v := by
  obtain ⟨kvs, rfl, kv, hm, rfl⟩ := get_mem h
  exact sizeOf_member hm

theorem field_term (hP : Package Γ X S) {k : Nat} {fd : FieldDecl} {f : FieldFill}
    (hg : genFieldFill Γ k fd = .ok (some f)) (hpl : Good S fd.typ) {v : JV} (hfit0 : fd.tags.jsonName = [] → Guards Γ B fd.typ v)
    (hfit1 : ∀ w, fd.tags.jsonName ≠ [] → v.get fd.tags.jsonName = some w → Guards Γ B fd.typ w) {g : GoVal} (hgt : HasType Γ X fd.typ g)
    (hcall : fd.tags.jsonName = [] → ∀ m, NameOf (pointee fd.typ) m → CallOK Γ X B m v)
    (hsub : ∀ m w, S m → sizeOf w < sizeOf v → CallOK Γ X B m w) :
    Closes B (fun K => runField (Γ.methods K) f v g) (fun r => HasType Γ X fd.typ r.2) := by
  have hj := (genFieldFill_some hg).1
  have hdf := ifDefault_cases hg
  have hlook : ∀ w, (if f.json = [] then some v else v.get f.json) = some w →
      Closes B (fun K => runExtr (Γ.methods K) f.x 0 w g) (FieldTV Γ X B fd.typ f) := by
    intro w hw
    split at hw
    · rename_i h0
      cases hw
      exact field_extr_term hP hg hpl (hfit0 (hj ▸ h0)) hgt (hcall (hj ▸ h0)) hsub
    · rename_i h0
      have hlt := sizeOf_get hw
      exact field_extr_term hP hg hpl (hfit1 w (hj ▸ h0) (hj ▸ hw)) hgt (fun m hm => hsub m w (hpl.pointee.name hm) hlt)
        (fun m w' hm hw' => hsub m w' hm (Nat.lt_trans hw' hlt))
  have hpresent : ∀ w, (if f.json = [] then some v else v.get f.json) = some w →
      Closes B (fun K => runExtr (Γ.methods K) f.x 0 w g >>= fun tv => match tv with
        | .ret e fld' => (pure (some e, fld') : Out (Option Err × GoVal))
        | .done (.error e) fld' => if f.check then pure (some (newParsingError f.json e), fld') else .unsupp
        | .done (.ok val) fld' =>
          match f.max.bind (exceeds · val) with
          | some c => pure (some (newParsingError f.json (.plain c)), fld')
          | none => do
            let r ← storeField (Γ.methods K) f.store val fld'
            pure (none, r)) (fun r => HasType Γ X fd.typ r.2) := by
    intro w hw
    refine (hlook w hw).bind fun tv htv => ?_
    match tv, htv with
    | .ret e c, h => exact .pure h
    | .done (.error e) c, h => simp only [h.1, if_true]; exact .pure h.2
    | .done (.ok val) c, h =>
      simp only
      cases f.max.bind (exceeds · val) with
      | some c => exact .pure h.1
      | none =>
        simp only
        exact h.2.bind fun r hr => .pure hr
  have habsent : ∀ x : Option JV, Closes B (fun _ => match f.dflt with
      | .nothing => (.ok (none, g) : Out (Option Err × GoVal))
      | .required => .ok (some (newParsingError f.json (.plain (.required f.json))), g)
      | .value d onlyAbsent => if onlyAbsent && x.isSome then .ok (none, g) else .ok (none, d)) (fun r => HasType Γ X fd.typ r.2) := by
    intro x
    rcases hdf with ⟨_, _, h⟩ | ⟨_, _, h⟩ | ⟨_, d, oa, h, hd, _⟩
    · rw [h]; exact .pure hgt
    · rw [h]; exact .pure hgt
    · rw [h]
      simp only
      split
      · exact .pure hgt
      · exact .pure (default_typed hd)
  simp only [runField]
  cases hx : (if f.json = [] then some v else v.get f.json) with
  | none => exact habsent none
  | some w =>
    cases hn : f.nullable && w.isNull with
    | true => simp only [hn, if_true]; exact habsent (some w)
    | false => simp only [hn, Bool.false_eq_true, if_false]; exact hpresent w hx

theorem fields_term {v : JV} : ∀ (fields : List FieldDecl) (fs : List (Option FieldFill)) (gs : List GoVal),
    fs.length = fields.length → gs.length = fields.length →
    (∀ (i : Nat) (fd : FieldDecl) (g : GoVal), fields[i]? = some fd → gs[i]? = some g → HasType Γ X fd.typ g) →
    (∀ (i : Nat) (fd : FieldDecl) (f : FieldFill) (g : GoVal), fields[i]? = some fd → fs[i]? = some (some f) →
      HasType Γ X fd.typ g → Closes B (fun K => runField (Γ.methods K) f v g) (fun r => HasType Γ X fd.typ r.2)) →
    Closes B (fun K => runFields (Γ.methods K) v fs gs) (fun r => r.2.length = fields.length ∧
      ∀ (i : Nat) (fd : FieldDecl) (g : GoVal), fields[i]? = some fd → r.2[i]? = some g → HasType Γ X fd.typ g)
  | [], [], [], _, _, _, _ => by simp only [runFields]; exact .pure ⟨rfl, by simp⟩
  | fd :: fields, f :: fs, g :: gs, h1, h2, ht, hf => by
    have hg : HasType Γ X fd.typ g := ht 0 fd g (by simp) (by simp)
    have ih := fields_term fields fs gs (by simpa using h1) (by simpa using h2)
      (fun i fd g hi hj => ht (i + 1) fd g (by simpa using hi) (by simpa using hj))
      (fun i fd f g hi hj => hf (i + 1) fd f g (by simpa using hi) (by simpa using hj))
    have push : ∀ (g' : GoVal) (gs' : List GoVal), HasType Γ X fd.typ g' → (gs'.length = fields.length ∧
        ∀ (i : Nat) (fd : FieldDecl) (g : GoVal), fields[i]? = some fd → gs'[i]? = some g → HasType Γ X fd.typ g) →
        ((g' :: gs').length = (fd :: fields).length ∧
        ∀ (i : Nat) (fd' : FieldDecl) (g : GoVal), (fd :: fields)[i]? = some fd' → (g' :: gs')[i]? = some g → HasType Γ X fd'.typ g) := by
      intro g' gs' hg' hgs
      refine ⟨by simpa using hgs.1, ?_⟩
      intro i fd' g hi hj
      cases i with
      | zero => simp at hi hj; subst hi; subst hj; exact hg'
      | succ i => exact hgs.2 i fd' g (by simpa using hi) (by simpa using hj)
    cases f with
    | none =>
      simp only [runFields]
      refine ih.bind fun r hr => ?_
      exact .pure (push g r.2 hg hr)
    | some f =>
      simp only [runFields]
      refine (hf 0 fd f g (by simp) (by simp) hg).bind fun r hr => ?_
      obtain ⟨e, g'⟩ := r
      cases e with
      | some e =>
        refine .pure (push g' gs hr ⟨by simpa using h2, ?_⟩)
        exact fun i fd g hi hj => ht (i + 1) fd g (by simpa using hi) (by simpa using hj)
      | none =>
        refine ih.bind fun r' hr' => ?_
        exact .pure (push g' r'.2 hr hr')

/-! ### declared types -/

theorem fill_of_ir {n k1 : Nat} {d : Decl} {ir : FillIR} (hd : Γ.decl n = some d) (hg : genFill Γ k1 d = .ok ir) {v : JV} {s : GoVal}
    {P : Option Err × GoVal → Prop} (h : Closes B (fun k => runFill (Γ.methods k) ir v s) P) :
    Closes B (fun k => (Γ.methods k n).fill v s) P := by
  refine Closes.succ (h.congr k1 (o' := fun k => genFill Γ k d >>= fun ir => runFill (Γ.methods k) ir v s) fun k hk => ?_)
    (fun k => methods_fill hd v s)
  simp only [genFill_lift hk hg, Out.ok_bind]

theorem genFill_map_simple {k : Nat} {val : TExpr} {star : Bool} {t : TExpr} {x : Extr}
    (hg : genFill Γ k (.alias (.map val)) = .ok (.map star t x)) : x.simple = true := by
  simp only [genFill] at hg
  obtain ⟨r, h1, h2⟩ := Out.bind_eq_ok.1 hg
  split at h2
  · cases h2
  · clear h1 hg
    generalize r.x = y at h2
    have hy : y.simple = true ∧ y = x := by
      cases y <;> simp only at h2 <;> first
        | (cases h2; done)
        | (refine ⟨rfl, ?_⟩
           split at h2
           · split at h2 <;> first
               | (simp only [Out.pure_eq, Out.ok.injEq, FillIR.map.injEq] at h2; exact h2.2.2)
               | cases h2
           · simp only [Out.pure_eq, Out.ok.injEq, FillIR.map.injEq] at h2; exact h2.2.2)
    rw [← hy.2]; exact hy.1

theorem list_term (hP : Package Γ X S) {elt : TExpr} {x : Extr} {b : Bool} {path : PathE}
    (hx : Plan Γ (Fld.prepare Γ false elt {} false true) path x b) (hst : ∀ u, elt ≠ .star u) (hel : Good S elt)
    {l : List JV} {cells : List GoVal} (hc : ∀ c ∈ cells, HasType Γ X elt c) (hl : l.length ≤ cells.length)
    (hfit : ∀ a ∈ l, Guards Γ B elt a) (hsub : ∀ m w, S m → sizeOf w < sizeOf (JV.arr l) → CallOK Γ X B m w) :
    Closes B (fun k => sliceLoop (listRound (Γ.methods k) elt x) 0 l cells)
      (fun r => (∀ c ∈ r.2.2, HasType Γ X elt c) ∧ r.2.2.length = cells.length) := by
  have hpt : pointee elt = elt := by cases elt <;> first | rfl | exact absurd rfl (hst _)
  have hpe : (Fld.prepare Γ false elt {} false true).expr = elt := by rw [prepare_expr, hpt]
  have hs : (Fld.prepare Γ false elt {} false true).isStar = false := by
    rcases prepare_isStar Γ false elt {} true with ⟨_, h⟩ | ⟨h, _⟩
    · exact absurd h (hst _)
    · exact h
  have hnp : x.usesPlace = false := hx.noPlace (by rw [hpe]; exact hel.noAnon) rfl (Or.inl hs)
  have hbf : b = false := by
    cases b with
    | false => rfl
    | true => rw [hx.filled (by rw [hpe]; exact hel.noAnon)] at hnp; cases hnp
  refine sliceLoop_term (P := HasType Γ X elt) l 0 cells (fun a ha i c hc => ?_) hl hc
  simp only [listRound]
  refine (extr_term hP hx (by rw [hpe]; exact hel) a i .nil (by rw [hpe]; exact hfit a ha) (fun h' => by rw [hnp] at h'; cases h') ?_ ?_).bind fun tv htv => ?_
  · intro m hm
    rw [hpe] at hm
    exact hsub m a (hel.name hm) (sizeOf_mem ha)
  · intro m w hm hw
    exact hsub m w hm (Nat.lt_trans hw (sizeOf_mem ha))
  · rw [hpe] at htv
    match tv, htv with
    | .ret e c', h' => exact .pure hc
    | .done (.error e) c', h' => exact .pure hc
    | .done (.ok w) c', h' => exact (h'.2 hbf).bind fun w hw => .pure hw

/-- one call, given the calls it can make -/
theorem decl_term (hP : Package Γ X S) {n : Nat} (hn : S n) {v : JV}
    (hsub : ∀ m w, S m → sizeOf w < sizeOf v → CallOK Γ X B m w)
    (hsame : ∀ d m, Γ.decl n = some d → m ∈ d.inner → S m → CallOK Γ X B m v) : CallOK Γ X B n v := by
  intro hfit old hold
  cases hd : Γ.decl n with
  | none =>
    obtain ⟨e, w, h1, h2⟩ := hP.foreignFill n v old hn hd (hold.of_foreign (.named n) hd)
    exact (Closes.pure (a := (e, w)) (HasType.foreign (.named n) hd h2)).succ (fun k => by rw [methods_none hd, h1])
  | some d =>
    obtain ⟨d', k1, ir, hd', hg⟩ := hP.decoders n hn (by rw [hd]; simp)
    rw [hd] at hd'
    cases hd'
    refine fill_of_ir hd hg ?_
    cases d with
    | struct strict fields =>
      obtain ⟨gs, rfl, hlen, hty⟩ := hold.of_struct (.named n) hd
      simp only [genFill] at hg
      obtain ⟨fs, hfs, hir⟩ := Out.bind_eq_ok.1 hg
      simp only [Out.pure_eq, Out.ok.injEq] at hir
      subst hir
      simp only [runFill]
      cases validate (fields.map (·.tags.jsonName)) strict v with
      | some e => exact .pure hold
      | none =>
        simp only
        refine (fields_term fields fs gs (genFields_length hfs) hlen hty ?_).bind fun r hr => .pure (.struct (.named n) hd hr.1 hr.2)
        intro i fd f g hi hj hgt
        obtain ⟨f', h1, h2⟩ := genFields_get hfs hi
        rw [h1] at hj
        cases hj
        have hmem : fd ∈ fields := List.mem_of_getElem? hi
        have hpl : Good S fd.typ := hP.types hn hd (by simp only [Decl.types, List.mem_map]; exact ⟨fd, hmem, rfl⟩)
        refine field_term hP h2 hpl (fun h0 o => hfit (.inline (.named n) hd hmem h0 o))
          (fun w h0 hw o => hfit (.field (.named n) hd hmem h0 (genFieldFill_some h2).2.1 hw o)) hgt (fun h0 m hm => ?_) hsub
        refine hsame _ m hd ?_ (hpl.pointee.name hm)
        simp only [Decl.inner, List.mem_flatMap]
        refine ⟨fd, hmem, List.mem_append_right _ ?_⟩
        rw [if_pos h0]
        generalize pointee fd.typ = e at hm
        cases hm <;> simp [TExpr.inline]
    | alias t =>
      have hpl : Good S t := hP.types hn hd (by simp [Decl.types])
      have hfit' : Guards Γ B t v := fun o => hfit (.alias (.named n) hd o)
      have hold' := hold.of_alias (.named n) hd
      have up : ∀ {w}, HasType Γ X t w → HasType Γ X (.named n) w := fun h => .alias (.named n) hd h
      by_cases hcoll : t.isCollection = true
      · cases t with
        | slice elt =>
          by_cases hb : elt = .prim .byte
          · subst hb
            simp [genFill, TExpr.isByte] at hg
            subst hg
            simp only [runFill, bytesFill]
            split
            · exact .pure hold
            · cases v.getStr with
              | error c => exact .pure hold
              | ok s =>
                simp only
                split
                · exact .pure (up (.bytes _))
                · exact .pure (up (.bytes _))
          · obtain ⟨hst, r, hr, hns, _, rfl⟩ := genFill_list (len := none) hb hg
            have hx := typedValue_plan hr (prepare_resolve ..) hns
            simp only [runFill]
            split
            · exact .pure hold
            · cases hv : v.getArr with
              | error c => exact .pure hold
              | ok l =>
                obtain rfl := getArr_ok hv
                refine (hP.zeroT hpl.slice).ends.bind fun z hz => ?_
                refine Closes.bind (list_term hP hx hst hpl.slice (l := l) (cells := List.replicate l.length z) ?_ (by simp) (fun a ha => hfit'.elem ha) hsub) fun r hr => ?_
                · intro c hc; rw [List.eq_of_mem_replicate hc]; exact hz
                · obtain ⟨stop, i, cells⟩ := r
                  exact .pure (up (.slice hb hr.1 (by simp)))
        | array len elt =>
          by_cases hb : elt = .prim .byte
          · subst hb
            simp [genFill, TExpr.isByte] at hg
            subst hg
            simp only [runFill]
            cases hold' with
            | array hb => exact absurd rfl hb
            | barr hl =>
              rcases fixed_fill hfit' hl with ⟨hB, hb⟩ | ⟨e, b, hb, hl⟩
              · simp only [hb]
                exact Or.inr ⟨hB, 0, fun _ _ => rfl⟩
              simp only [hb]
              exact .pure (up (.barr hl))
            | alias he | struct he | foreign he => cases he
          · obtain ⟨hst, r, hr, hns, _, rfl⟩ := genFill_list (len := some len) hb hg
            have hx := typedValue_plan hr (prepare_resolve ..) hns
            simp only [runFill]
            split
            · exact .pure hold
            · cases hv : v.getArr with
              | error c => exact .pure hold
              | ok l =>
                obtain rfl := getArr_ok hv
                simp only
                split
                · exact .pure hold
                · rename_i hlen
                  have hlen : len = l.length := by simpa using hlen
                  obtain ⟨es, rfl, hel, htes⟩ := hold'.array_cases hb
                  simp only
                  refine Closes.bind (list_term hP hx hst hpl.array (l := l) (cells := es) htes (by omega) (fun a ha => hfit'.cell ha) hsub) fun r hr => ?_
                  obtain ⟨stop, i, cells⟩ := r
                  exact .pure (up (.array hb (by simpa [hel] using hr.2) hr.1))
        | map val =>
          obtain ⟨r, hr, hns, _, rfl⟩ := genFill_mapT hg
          have hs := genFill_map_simple hg
          have hx := typedValue_plan hr (prepare_resolve ..) hns
          have hvl := hpl.map
          have hpe : (Fld.prepare Γ false val {} false true).expr = pointee val := prepare_expr ..
          have hnp : r.x.usesPlace = false := hx.noPlace (by rw [hpe]; exact hvl.pointee.noAnon) rfl (Or.inr hs)
          have hbf : r.filled = false := by
            cases hb : r.filled with
            | false => rfl
            | true =>
              rw [hb] at hx
              rw [hx.filled (by rw [hpe]; exact hvl.pointee.noAnon)] at hnp; cases hnp
          have hval : val = if (Fld.prepare Γ false val {} false true).isStar = true then TExpr.star (pointee val) else pointee val := by
            rw [prepare_isStar_eq]
            by_cases hst : ∃ u, val = .star u
            · rw [if_pos (star_ne_pointee.2 hst)]; obtain ⟨u, rfl⟩ := hst; rfl
            · rw [if_neg (fun h' => hst (star_ne_pointee.1 h'))]
              cases val <;> first | rfl | exact absurd ⟨_, rfl⟩ hst
          simp only [runFill]
          split
          · exact .pure hold
          · cases hv : v.getObj with
            | error c => exact .pure hold
            | ok kvs =>
              obtain rfl := getObj_ok hv
              refine Closes.bind (mapLoop_term (X := X) (Γ := Γ) (val := pointee val)
                (star := (Fld.prepare Γ false val {} false true).isStar) kvs [] ?_ (by simp) (by simp)) fun r hr => ?_
              · intro kv hkv
                refine (extr_term hP hx (by rw [hpe]; exact hvl.pointee) kv.2 0 .nil (by rw [hpe]; exact (hfit'.member hkv).pointee) (fun h' => by rw [hnp] at h'; cases h') ?_ ?_).imp
                  fun tv htv => ?_
                · intro m hm
                  rw [hpe] at hm
                  exact hsub m kv.2 (hvl.pointee.name hm) (sizeOf_member hkv)
                · intro m w hm hw
                  exact hsub m w hm (Nat.lt_trans hw (sizeOf_member hkv))
                · rw [hpe] at htv
                  match tv, htv with
                  | .ret e c', h' => exact absurd hs (by rw [show r.x.simple = false from h'.1]; simp)
                  | .done (.error e) c', h' => trivial
                  | .done (.ok w) c', h' => exact h'.2 hbf
              · obtain ⟨e, m⟩ := r
                rw [← hval] at hr
                exact .pure (up (.map hr.1 hr.2))
        | _ => cases hcoll
      · have hcoll : t.isCollection = false := by simpa using hcoll
        obtain ⟨hst, r, hr, hns, rfl⟩ := genFill_transit hcoll hg
        have hx := typedValue_plan hr (prepare_resolve ..) hns
        have hpt : pointee t = t := by cases t <;> first | rfl | exact absurd rfl (hst _)
        have hpe : (Fld.prepare Γ false t {} true false).expr = t := by rw [prepare_expr, hpt]
        have hbf : r.filled = false := by
          cases hb : r.filled with
          | false => rfl
          | true =>
            rw [hb] at hx
            generalize r.x = x at hx
            cases hx with
            | inPlace _ hf => cases hf.1
            | anon h => rw [hpe] at h; have := hpl.noAnon; rw [h] at this; cases this
        simp only [runFill]
        refine (extr_term hP hx (by rw [hpe]; exact hpl) v 0 old (by rw [hpe]; exact hfit') (fun _ => by rw [hpe]; exact hold') ?_ hsub).bind fun tv htv => ?_
        · intro m hm
          rw [hpe] at hm
          refine hsame _ m hd ?_ (hpl.name hm)
          cases hm <;> simp [Decl.inner, TExpr.inline]
        · rw [hpe] at htv
          have hplace : ∀ c, PlaceOK Γ X t r.x old c → HasType Γ X t c := by
            intro c hc
            cases hu : r.x.usesPlace with
            | true => exact hc.1 hu
            | false => rw [hc.2 hu]; exact hold'
          match tv, htv with
          | .ret e c, h' => exact .pure (up (hplace c h'.2))
          | .done (.error e) c, h' => exact .pure (up (hplace c h'.2))
          | .done (.ok val) c, h' => exact (h'.2 hbf).bind fun w hw => .pure (up hw)

/-- decoding a document that fits into any value of any type of the package ends -/
theorem fill_term (hP : Package Γ X S) {n : Nat} (hn : S n) (v : JV) : CallOK Γ X B n v := by
  obtain ⟨rank, hr⟩ := hP.acyclic
  induction hs : sizeOf v using Nat.strongRecOn generalizing v n with
  | _ sz ih =>
    induction hk : rank n using Nat.strongRecOn generalizing n with
    | _ r ih2 =>
      refine decl_term hP hn (fun m w hm hw => ih (sizeOf w) (by omega) hm w rfl) (fun d m hd hm hSm => ?_)
      exact ih2 (rank m) (by have := hr n d m hn hd hm; omega) hSm rfl

end VJ
