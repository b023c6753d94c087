import Verif.Spec.Order
import Verif.Proof.EncodeUnique

/-!
# Encoding and the order of map entries
-/

namespace VJ
set_option linter.unusedSectionVars false

/-! ### lists -/

theorem perm_zip {α β : Type} {a b : List α} (h : a.Perm b) : ∀ {c : List β}, c.length = a.length →
    ∃ d : List β, d.length = b.length ∧ (a.zip c).Perm (b.zip d) := by
  induction h with
  | nil => intro c hc; exact ⟨[], rfl, .nil⟩
  | cons x _ ih =>
    intro c hc
    cases c with
    | nil => cases hc
    | cons y c =>
      obtain ⟨d, h1, h2⟩ := ih (c := c) (by simpa using hc)
      exact ⟨y :: d, by simp [h1], h2.cons (x, y)⟩
  | swap x y l =>
    intro c hc
    match c, hc with
    | p :: q :: c, hc => exact ⟨q :: p :: c, by simpa using hc, .swap _ _ _⟩
  | trans _ _ ih1 ih2 =>
    intro c hc
    obtain ⟨d, h1, h2⟩ := ih1 hc
    obtain ⟨e, h3, h4⟩ := ih2 h1
    exact ⟨e, h3, h2.trans h4⟩

/-- element by element -/
def Each2 {α β : Type} (R : α → β → Prop) (a : List α) (b : List β) : Prop :=
  b.length = a.length ∧ ∀ (i : Nat) (x : α) (y : β), a[i]? = some x → b[i]? = some y → R x y

theorem Each2.mem {α β : Type} {R : α → β → Prop} {a : List α} {b : List β} (h : Each2 R a b) {p : α × β} (hp : p ∈ a.zip b) : R p.1 p.2 := by
  obtain ⟨i, hi, rfl⟩ := List.getElem_of_mem hp
  simp only [List.length_zip] at hi
  refine h.2 i _ _ ?_ ?_
  · rw [List.getElem?_eq_getElem (by omega)]; simp
  · rw [List.getElem?_eq_getElem (by omega)]; simp

theorem Each2.of_zip {α β : Type} {R : α → β → Prop} {a : List α} {b : List β} (hl : b.length = a.length)
    (h : ∀ p ∈ a.zip b, R p.1 p.2) : Each2 R a b := by
  refine ⟨hl, fun i x y hx hy => h (x, y) ?_⟩
  obtain ⟨hi, rfl⟩ := List.getElem?_eq_some_iff.1 hx
  obtain ⟨hj, rfl⟩ := List.getElem?_eq_some_iff.1 hy
  have := List.getElem_mem (l := a.zip b) (n := i) (by simp; omega)
  simpa using this

theorem Each2.nil {α β : Type} {R : α → β → Prop} : Each2 R ([] : List α) ([] : List β) := ⟨rfl, by simp⟩

theorem Each2.cons {α β : Type} {R : α → β → Prop} {x : α} {y : β} {a : List α} {b : List β} (h : R x y) (ht : Each2 R a b) :
    Each2 R (x :: a) (y :: b) := by
  refine ⟨by simp [ht.1], fun i x' y' hx hy => ?_⟩
  cases i with
  | zero => simp at hx hy; subst hx; subst hy; exact h
  | succ i => exact ht.2 i x' y' (by simpa using hx) (by simpa using hy)

theorem Each2.uncons {α β : Type} {R : α → β → Prop} {x : α} {a : List α} {l : List β} (h : Each2 R (x :: a) l) :
    ∃ y b, l = y :: b ∧ R x y ∧ Each2 R a b := by
  cases l with
  | nil => exact absurd h.1 (by simp)
  | cons y b =>
    refine ⟨y, b, rfl, h.2 0 x y rfl rfl, by simpa using h.1, fun i x' y' hx hy => ?_⟩
    exact h.2 (i + 1) x' y' (by simpa using hx) (by simpa using hy)

theorem Each2.symm {α β : Type} {R : α → β → Prop} {a : List α} {b : List β} (h : Each2 R a b) : Each2 (fun y x => R x y) b a :=
  ⟨h.1.symm, fun i x y hx hy => h.2 i y x hy hx⟩

theorem Each2.imp {α β : Type} {R R' : α → β → Prop} (hr : ∀ x y, R x y → R' x y) {a : List α} {b : List β} (h : Each2 R a b) : Each2 R' a b :=
  ⟨h.1, fun i x y hx hy => hr _ _ (h.2 i x y hx hy)⟩

theorem Each2.append {α β : Type} {R : α → β → Prop} : ∀ {a a' : List α} {b b' : List β}, Each2 R a b → Each2 R a' b' → Each2 R (a ++ a') (b ++ b')
  | [], _, b, _, h, h' => by
    have := h.1
    simp at this
    subst this
    exact h'
  | _ :: _, _, _, _, h, h' => by
    obtain ⟨y, b, rfl, h1, h2⟩ := h.uncons
    exact (Each2.append h2 h').cons h1

theorem Each2.map {α β γ δ : Type} {R : α → β → Prop} {R' : γ → δ → Prop} {f : α → γ} {g : β → δ} (hr : ∀ x y, R x y → R' (f x) (g y))
    {a : List α} {b : List β} (h : Each2 R a b) : Each2 R' (a.map f) (b.map g) := by
  refine ⟨by simp [h.1], fun i x y hx hy => ?_⟩
  simp only [List.getElem?_map, Option.map_eq_some_iff] at hx hy
  obtain ⟨x', hx', rfl⟩ := hx
  obtain ⟨y', hy', rfl⟩ := hy
  exact hr _ _ (h.2 i x' y' hx' hy')

theorem Each2.comp {α β γ : Type} {R : α → β → Prop} {R' : β → γ → Prop} {Q : α → γ → Prop} (hq : ∀ x y z, R x y → R' y z → Q x z)
    {a : List α} {b : List β} {c : List γ} (h : Each2 R a b) (h' : Each2 R' b c) : Each2 Q a c := by
  refine ⟨h'.1.trans h.1, fun i x z hx hz => ?_⟩
  have hi := (List.getElem?_eq_some_iff.1 hx).1
  have hb := List.getElem?_eq_getElem (l := b) (i := i) (by rw [h.1]; exact hi)
  exact hq _ _ _ (h.2 i x _ hx hb) (h'.2 i _ z hb hz)

/-- choose the third list -/
theorem Each2.choose {α β γ : Type} {P : α → β → Prop} {R : α → γ → Prop} {Q : β → γ → Prop} :
    ∀ {a : List α} {b : List β}, Each2 P a b → (∀ x y, (x, y) ∈ a.zip b → ∃ z, R x z ∧ Q y z) → ∃ c, Each2 R a c ∧ Each2 Q b c
  | [], b, h, _ => by
    have := h.1
    simp at this
    subst this
    exact ⟨[], .nil, .nil⟩
  | x :: a, b, h, hc => by
    obtain ⟨y, b, rfl, h1, h2⟩ := h.uncons
    obtain ⟨z, h3, h4⟩ := hc x y (by simp)
    obtain ⟨c, h5, h6⟩ := Each2.choose h2 fun x y hxy => hc x y (by simp [hxy])
    exact ⟨z :: c, h5.cons h3, h6.cons h4⟩

/-- a permutation of one list carries over to the other -/
theorem Each2.perm {α β : Type} {R : α → β → Prop} {a : List α} {b : List β} (h : Each2 R a b) {a' : List α} (hp : a.Perm a') :
    ∃ b', Each2 R a' b' ∧ b.Perm b' ∧ (a.zip b).Perm (a'.zip b') := by
  obtain ⟨b', h1, h2⟩ := perm_zip hp h.1
  refine ⟨b', .of_zip h1 fun p hp' => h.mem (h2.mem_iff.2 hp'), ?_, h2⟩
  have := h2.map Prod.snd
  have hl := h.1
  rwa [List.map_snd_zip (by omega), List.map_snd_zip (by omega)] at this

/-! ### shuffled values -/

theorem keys_pw {α β : Type} {a : List (Str × α)} {b : List (Str × β)} {R : α → β → Prop} (hk : b.map (·.1) = a.map (·.1))
    (h : ∀ (i : Nat) (x : Str × α) (y : Str × β), a[i]? = some x → b[i]? = some y → R x.2 y.2) :
    Each2 (fun x y => x.1 = y.1 ∧ R x.2 y.2) a b := by
  have hl : b.length = a.length := by simpa using congrArg List.length hk
  refine ⟨hl, fun i x y hx hy => ⟨?_, h i x y hx hy⟩⟩
  have := congrArg (·[i]?) hk
  simp [hx, hy] at this
  exact this.symm

theorem pw_keys {α β : Type} {a : List (Str × α)} {b : List (Str × β)} {R : α → β → Prop}
    (h : Each2 (fun x y => x.1 = y.1 ∧ R x.2 y.2) a b) : b.map (·.1) = a.map (·.1) := by
  apply List.ext_getElem?
  intro i
  by_cases hi : i < a.length
  · have h1 := List.getElem?_eq_getElem hi
    have h2 := List.getElem?_eq_getElem (l := b) (i := i) (by rw [h.1]; exact hi)
    simp [h1, h2, (h.2 i _ _ h1 h2).1]
  · rw [List.getElem?_eq_none (by simp [h.1]; omega), List.getElem?_eq_none (by simp; omega)]

def KV (R : GoVal → GoVal → Prop) (x y : Str × GoVal) : Prop := x.1 = y.1 ∧ R x.2 y.2

theorem Shuffled.symm {v w : GoVal} (h : Shuffled v w) : Shuffled w v := by
  induction h with
  | refl v => exact .refl v
  | ptr _ ih => exact .ptr ih
  | slice hl _ ih => exact .slice hl.symm fun i x y hx hy => ih i y x hy hx
  | arr hl _ ih => exact .arr hl.symm fun i x y hx hy => ih i y x hy hx
  | struct hl _ ih => exact .struct hl.symm fun i x y hx hy => ih i y x hy hx
  | @map kvs mid kvs' hk _ hp ih =>
    have h1 : Each2 (fun x y => x.1 = y.1 ∧ Shuffled x.2 y.2) mid kvs := by
      refine (keys_pw (R := fun a b => Shuffled b a) hk ih).symm.imp fun x y h => ⟨h.1.symm, h.2⟩
    obtain ⟨mid', h2, h3, _⟩ := h1.perm hp
    exact .map (pw_keys h2) (fun i a b ha hb => (h2.2 i a b ha hb).2) h3.symm

theorem Shuffled.listing {v w : GoVal} (h : Shuffled v w) {es : List GoVal} (hl : Listing v es) :
    ∃ es', Listing w es' ∧ Each2 Shuffled es es' := by
  cases h with
  | refl => exact ⟨es, hl, rfl, fun i x y hx hy => by rw [hx] at hy; cases hy; exact .refl x⟩
  | slice hl' h => cases hl; exact ⟨_, .slice _ _, hl', h⟩
  | arr hl' h => cases hl; exact ⟨_, .arr _, hl', h⟩
  | ptr | struct | map => cases hl

theorem Shuffled.of_struct {es : List GoVal} {w : GoVal} (h : Shuffled (.struct es) w) : ∃ es', w = .struct es' ∧ Each2 Shuffled es es' := by
  cases h with
  | refl => exact ⟨es, rfl, rfl, fun i x y hx hy => by rw [hx] at hy; cases hy; exact .refl x⟩
  | struct hl h => exact ⟨_, rfl, hl, h⟩

theorem Shuffled.of_arr {es : List GoVal} {w : GoVal} (h : Shuffled (.arr es) w) : ∃ es', w = .arr es' ∧ Each2 Shuffled es es' := by
  cases h with
  | refl => exact ⟨es, rfl, rfl, fun i x y hx hy => by rw [hx] at hy; cases hy; exact .refl x⟩
  | arr hl h => exact ⟨_, rfl, hl, h⟩

theorem Shuffled.of_slice {es sp : List GoVal} {w : GoVal} (h : Shuffled (.slice es sp) w) : ∃ es', w = .slice es' sp ∧ Each2 Shuffled es es' := by
  cases h with
  | refl => exact ⟨es, rfl, rfl, fun i x y hx hy => by rw [hx] at hy; cases hy; exact .refl x⟩
  | slice hl h => exact ⟨_, rfl, hl, h⟩

theorem Shuffled.of_map {kvs : List (Str × GoVal)} {w : GoVal} (h : Shuffled (.map kvs) w) :
    ∃ mid kvs', w = .map kvs' ∧ Each2 (KV Shuffled) kvs mid ∧ mid.Perm kvs' := by
  cases h with
  | refl => exact ⟨kvs, kvs, rfl, ⟨rfl, fun i x y hx hy => by rw [hx] at hy; cases hy; exact ⟨rfl, .refl _⟩⟩, .refl _⟩
  | map hk h hp => exact ⟨_, _, rfl, keys_pw hk h, hp⟩

theorem Shuffled.of_ptr {v w : GoVal} (h : Shuffled (.ptr v) w) : ∃ v', w = .ptr v' ∧ Shuffled v v' := by
  cases h with
  | refl => exact ⟨v, rfl, .refl v⟩
  | ptr h => exact ⟨_, rfl, h⟩

variable [Ext]

theorem Shuffled.scalar {v w : GoVal} (h : Shuffled v w) {jv : JV} (hs : ScalarDoc v jv) : w = v := by
  cases hs <;> (cases h; rfl)

theorem Shuffled.zeroScalar {v w : GoVal} (h : Shuffled v w) (hs : ZeroScalar v) : w = v := by
  cases hs <;> (cases h; rfl)

/-! ### `IsZero` -/

variable {Γ : Env} {X : Nat → GoVal → Prop} {F : Nat → Option GoVal → JV → Prop}

theorem eqZero_shuffled {v w : GoVal} (h : Shuffled v w) : eqZero w = eqZero v := by
  cases h <;> rfl

theorem zTest_shuffled {M : Nat → Methods} (hM : ∀ n v w, Shuffled v w → (M n).isZero w = (M n).isZero v) (t : ZTest) {v w : GoVal}
    (h : Shuffled v w) : runZTest M t w = runZTest M t v := by
  cases t with
  | const => simp only [runZTest, eqZero_shuffled h]
  | time => cases h <;> rfl
  | method n => exact hM n v w h

theorem zTests_shuffled {M : Nat → Methods} (hM : ∀ n v w, Shuffled v w → (M n).isZero w = (M n).isZero v) :
    ∀ (ts : List ZTest) {vs ws : List GoVal}, Each2 Shuffled vs ws → runZTests M ts ws = runZTests M ts vs
  | ts, [], ws, h => by
    have := h.1
    simp at this
    subst this
    rfl
  | [], v :: vs, ws, h => by
    obtain ⟨w, ws, rfl, _, _⟩ := h.uncons
    rfl
  | t :: ts, v :: vs, ws, h => by
    obtain ⟨w, ws, rfl, h1, h2⟩ := h.uncons
    simp only [runZTests, zTest_shuffled hM t h1, zTests_shuffled hM ts h2]

theorem all_shuffled {M : Nat → Methods} (hM : ∀ n v w, Shuffled v w → (M n).isZero w = (M n).isZero v) (t : ZTest) :
    ∀ {vs ws : List GoVal}, Each2 Shuffled vs ws → runAll M t ws = runAll M t vs
  | [], ws, h => by
    have := h.1
    simp at this
    subst this
    rfl
  | v :: vs, ws, h => by
    obtain ⟨w, ws, rfl, h1, h2⟩ := h.uncons
    simp only [runAll, zTest_shuffled hM t h1, all_shuffled hM t h2]

theorem len_shuffled {v w : GoVal} (h : Shuffled v w) : w.len = v.len := by
  cases h with
  | refl => rfl
  | ptr => rfl
  | slice hl h => simp [GoVal.len, hl]
  | arr => rfl
  | struct => rfl
  | map hk h hp =>
    have := congrArg List.length hk
    simp at this
    simp [GoVal.len, ← hp.length_eq, this]

theorem isZero_shuffled (hB : OrderBlind Γ X F) : ∀ (k n : Nat) (v w : GoVal), Shuffled v w → (Γ.methods k n).isZero w = (Γ.methods k n).isZero v
  | 0, n, v, w, h => rfl
  | k + 1, n, v, w, h => by
    cases hd : Γ.decl n with
    | none => rw [methods_none hd]; exact hB.isZero n v w hd h
    | some d =>
      rw [methods_some hd]
      simp only [declMethods]
      cases genZero Γ k d with
      | ok ir =>
        simp only [Out.ok_bind]
        have hM := isZero_shuffled hB k
        cases ir with
        | never => rfl
        | struct ts =>
          cases v with
          | struct vs =>
            obtain ⟨ws, rfl, hw⟩ := h.of_struct
            exact zTests_shuffled hM ts hw
          | _ => cases h <;> rfl
        | len => simp only [runZero, len_shuffled h]
        | all t =>
          cases v with
          | arr vs =>
            obtain ⟨ws, rfl, hw⟩ := h.of_arr
            exact all_shuffled hM t hw
          | _ => cases h <;> rfl
        | allBytes => cases h <;> rfl
        | single t => exact zTest_shuffled hM t h
      | _ => rfl

theorem isZeroIs_shuffled (hB : OrderBlind Γ X F) {n : Nat} {v w : GoVal} (h : Shuffled v w) {b : Bool} (hz : IsZeroIs Γ n v b) : IsZeroIs Γ n w b := by
  obtain ⟨k, hk⟩ := hz
  exact ⟨k, by rw [isZero_shuffled hB k n v w h]; exact hk⟩

theorem isEmpty_shuffled (hB : OrderBlind Γ X F) {k : EKind} {v w : GoVal} (h : Shuffled v w) (he : IsEmpty Γ k v) : IsEmpty Γ k w := by
  cases he with
  | scalar hz => rw [h.zeroScalar hz]; exact .scalar hz
  | ptr => cases h; exact .ptr
  | ptr2 => cases h; exact .ptr2
  | ptr2' => obtain ⟨v', rfl, h2⟩ := h.of_ptr; cases h2; exact .ptr2'
  | time ht => cases h; exact .time ht
  | timePtr => cases h; exact .timePtr
  | method hz => exact .method (isZeroIs_shuffled hB h hz)
  | methodPtr => cases h; exact .methodPtr
  | map => cases h; exact .map
  | list => cases h; exact .list
  | bytes => cases h; exact .bytes
  | fixedBytes hb => cases h; exact .fixedBytes hb

/-- an empty value has no maps, but for values with their own method -/
theorem isEmpty_same {k : EKind} (hk : ∀ n, k ≠ .method n) {v w : GoVal} (h : Shuffled v w) (he : IsEmpty Γ k v) : w = v := by
  cases he with
  | scalar hz => exact h.zeroScalar hz
  | ptr2' => obtain ⟨v', rfl, h2⟩ := h.of_ptr; cases h2; rfl
  | method => exact absurd rfl (hk _)
  | _ => cases h; rfl

theorem omitted_shuffled (hB : OrderBlind Γ X F) {fd : FieldDecl} {v w : GoVal} (h : Shuffled v w) (ho : Omitted Γ fd v) : Omitted Γ fd w := by
  obtain ⟨k, h1, h2, h3⟩ := ho
  exact ⟨k, h1, isEmpty_shuffled hB h h2, h3⟩

theorem forgotten_shuffled (hB : OrderBlind Γ X F) {fd : FieldDecl} {v w : GoVal} (h : Shuffled v w) (ho : Forgotten Γ fd v) : Forgotten Γ fd w := by
  obtain ⟨ho, k, h1, h2, h3⟩ := ho
  exact ⟨ho, k, h1, isEmpty_shuffled hB h h2, h3⟩

/-! ### documents -/

def Members (R : JV → JV → Prop) (x y : Str × JV) : Prop := x.1 = y.1 ∧ R x.2 y.2

omit [Ext] in
theorem pw_refl {α : Type} {R : α → α → Prop} (hr : ∀ x, R x x) (a : List α) : Each2 R a a :=
  ⟨rfl, fun i x y hx hy => by rw [hx] at hy; cases hy; exact hr x⟩

omit [Ext] in
theorem SameDoc.of_obj {kvs : List (Str × JV)} {d : JV} (h : SameDoc (.obj kvs) d) :
    ∃ mid kvs', d = .obj kvs' ∧ Each2 (Members SameDoc) kvs mid ∧ mid.Perm kvs' := by
  cases h with
  | refl => exact ⟨kvs, kvs, rfl, pw_refl (fun x => ⟨rfl, .refl _⟩) kvs, .refl _⟩
  | obj hk h hp => exact ⟨_, _, rfl, keys_pw hk h, hp⟩

omit [Ext] in
theorem SameDoc.members {kvs mid kvs' : List (Str × JV)} (h : Each2 (Members SameDoc) kvs mid) (hp : mid.Perm kvs') :
    SameDoc (.obj kvs) (.obj kvs') :=
  .obj (pw_keys h) (fun i a b ha hb => (h.2 i a b ha hb).2) hp

omit [Ext] in
theorem SameDoc.one {name : Str} {a b : JV} (h : SameDoc a b) : SameDoc (.obj [(name, a)]) (.obj [(name, b)]) :=
  .members (mid := [(name, b)]) (Each2.nil.cons ⟨rfl, h⟩) (.refl _)

omit [Ext] in
theorem SameDoc.list {a b : List JV} (h : Each2 SameDoc a b) : SameDoc (.arr a) (.arr b) := .arr h.1 h.2

omit [Ext] in
theorem SameDoc.flatten : ∀ {ms ms' : List (List (Str × JV))}, Each2 (fun m m' => SameDoc (.obj m) (.obj m')) ms ms' →
    SameDoc (.obj ms.flatten) (.obj ms'.flatten)
  | [], ms', h => by
    have := h.1
    simp at this
    subst this
    exact .refl _
  | m :: ms, ms', h => by
    obtain ⟨m', ms', rfl, h1, h2⟩ := h.uncons
    obtain ⟨mid, kvs', he, h3, h4⟩ := h1.of_obj
    cases he
    obtain ⟨mid2, kvs2, he, h5, h6⟩ := (SameDoc.flatten h2).of_obj
    cases he
    exact .members (Each2.append h3 h5) (h4.append h6)

omit [Ext] in
/-- the entries of a map, each encoded, in another order -/
theorem entries_shuffled {P : GoVal → JV → Prop} {kvs kvs' mid : List (Str × GoVal)} {docs : List JV}
    (hd : Each2 (fun (kv : Str × GoVal) d => P kv.2 d ∧ ∀ w, Shuffled kv.2 w → ∃ d', P w d' ∧ SameDoc d d') kvs docs)
    (hm : Each2 (KV Shuffled) kvs mid) (hp : mid.Perm kvs') :
    ∃ docs', Each2 (fun (kv : Str × GoVal) d => P kv.2 d) kvs' docs' ∧ SameDoc (.obj ((kvs.map (·.1)).zip docs)) (.obj ((kvs'.map (·.1)).zip docs')) := by
  -- the documents of `mid`
  have h1 : Each2 (fun (kv : Str × GoVal) d => ∃ d', P kv.2 d' ∧ SameDoc d d') mid docs :=
    hm.symm.comp (fun x y z hxy hyz => hyz.2 _ hxy.2) hd
  obtain ⟨docs1, h2, h3⟩ := h1.choose (R := fun (kv : Str × GoVal) d => P kv.2 d) (Q := SameDoc) fun x y hxy => by
    obtain ⟨d', h1, h2⟩ := h1.mem hxy; exact ⟨d', h1, h2⟩
  obtain ⟨docs', h4, _, h5⟩ := h2.perm hp
  refine ⟨docs', h4, ?_⟩
  have hkeys : mid.map (·.1) = kvs.map (·.1) := pw_keys hm
  have zipmap : ∀ (a : List (Str × GoVal)) (b : List JV), (a.map (·.1)).zip b = (a.zip b).map fun p => (p.1.1, p.2) := by
    intro a b
    induction a generalizing b with
    | nil => simp
    | cons x a ih => cases b with
      | nil => simp
      | cons y b => simp [ih]
  refine .members (mid := (mid.map (·.1)).zip docs1) ?_ ?_
  · rw [hkeys]
    have hl1 := hd.1
    have hl2 := h3.1
    refine ⟨by simp; omega, fun i x y hx hy => ?_⟩
    simp only [List.zip, List.getElem?_zipWith_eq_some, List.getElem?_map, Option.map_eq_some_iff] at hx hy
    obtain ⟨k1, d1, ⟨a, ha, rfl⟩, hd1, rfl⟩ := hx
    obtain ⟨k2, d2, ⟨b, hb, rfl⟩, hd2, rfl⟩ := hy
    rw [ha] at hb
    cases hb
    exact ⟨rfl, h3.2 i _ _ hd1 hd2⟩
  · rw [zipmap, zipmap]
    exact h5.map _

/-- what encoding one order means for another -/
def Carries (Γ : Env) (F : Nat → Option GoVal → JV → Prop) (pl : Place) (v : GoVal) (jv : JV) : Prop :=
  ∀ w, Shuffled v w → ∃ jv', Enc Γ F pl w jv' ∧ SameDoc jv jv'

theorem docs_shuffled {pl : Place} {es : List GoVal} {docs : List JV} (hl : docs.length = es.length)
    (h : ∀ (i : Nat) (x : GoVal) (d : JV), es[i]? = some x → docs[i]? = some d → Carries Γ F pl x d) {es' : List GoVal} (hs : Each2 Shuffled es es') :
    ∃ docs', Each2 (Enc Γ F pl) es' docs' ∧ SameDoc (.arr docs) (.arr docs') := by
  have h1 : Each2 (Carries Γ F pl) es docs := ⟨hl, h⟩
  have h2 : Each2 (fun y d => ∃ d', Enc Γ F pl y d' ∧ SameDoc d d') es' docs := hs.symm.comp (fun x y z hxy hyz => hyz _ hxy) h1
  obtain ⟨docs', h3, h4⟩ := h2.choose (R := Enc Γ F pl) (Q := SameDoc) fun x y hxy => by
    obtain ⟨d', h1, h2⟩ := h2.mem hxy; exact ⟨d', h1, h2⟩
  exact ⟨docs', h3, .list h4⟩

theorem map_shuffled {pl : Place} {kvs : List (Str × GoVal)} {docs : List JV} (hl : docs.length = kvs.length)
    (h0 : ∀ (i : Nat) (x : Str × GoVal) (d : JV), kvs[i]? = some x → docs[i]? = some d → Enc Γ F pl x.2 d)
    (h : ∀ (i : Nat) (x : Str × GoVal) (d : JV), kvs[i]? = some x → docs[i]? = some d → Carries Γ F pl x.2 d) {w : GoVal}
    (hs : Shuffled (.map kvs) w) :
    ∃ kvs' docs', w = .map kvs' ∧ Each2 (fun (kv : Str × GoVal) d => Enc Γ F pl kv.2 d) kvs' docs' ∧
      SameDoc (.obj ((kvs.map (·.1)).zip docs)) (.obj ((kvs'.map (·.1)).zip docs')) := by
  obtain ⟨mid, kvs', rfl, hm, hp⟩ := hs.of_map
  obtain ⟨docs', h1, h2⟩ := entries_shuffled (P := Enc Γ F pl) (docs := docs)
    ⟨hl, fun i x d hx hd => ⟨h0 i x d hx hd, h i x d hx hd⟩⟩ hm hp
  exact ⟨kvs', docs', rfl, h1, h2⟩

theorem enc_shuffled (hB : OrderBlind Γ X F) {pl : Place} {v : GoVal} {jv : JV} (h : Enc Γ F pl v jv) : Carries Γ F pl v jv := by
  induction h with
  | scalar ht h => intro w hw; rw [hw.scalar h]; exact ⟨_, .scalar ht h, .refl _⟩
  | time tm => intro w hw; cases hw; exact ⟨_, .time tm, .refl _⟩
  | nilScalar ht hy => intro w hw; cases hw; exact ⟨_, .nilScalar ht hy, .refl _⟩
  | ptrScalar ht hy h =>
    intro w hw
    obtain ⟨v', rfl, hv⟩ := hw.of_ptr
    rw [hv.scalar h]
    exact ⟨_, .ptrScalar ht hy h, .refl _⟩
  | nilPtr hy hp h => intro w hw; cases hw; exact ⟨_, .nilPtr hy hp h, .refl _⟩
  | ptr hy hp h ih =>
    intro w hw
    obtain ⟨v', rfl, hv⟩ := hw.of_ptr
    obtain ⟨jv', h1, h2⟩ := ih v' hv
    exact ⟨jv', .ptr hy hp h1, h2⟩
  | nilList ht => intro w hw; cases hw; exact ⟨_, .nilList ht, .refl _⟩
  | list ht hv hl h ih =>
    intro w hw
    obtain ⟨es', h1, h2⟩ := hw.listing hv
    obtain ⟨docs', h3, h4⟩ := docs_shuffled hl ih h2
    exact ⟨_, .list ht h1 h3.1 h3.2, h4⟩
  | name ht hp hl h ih =>
    intro w hw
    obtain ⟨jv', h1, h2⟩ := ih w hw
    exact ⟨jv', .name ht hp hl h1, h2⟩
  | foreign hd h =>
    intro w hw
    obtain ⟨jv', h1, h2⟩ := hB.docs _ _ w _ hd hw h
    exact ⟨jv', .foreign hd h1, h2⟩
  | @struct n strict fields gs ms hd hl hm h ih =>
    intro w hw
    obtain ⟨gs', rfl, hg⟩ := hw.of_struct
    have h1 : Each2 (fun (p : FieldDecl × GoVal) m => Carries Γ F (.field p.1) p.2 (.obj m)) (fields.zip gs) ms := by
      refine ⟨by simp; omega, fun i x m hx hm' => ?_⟩
      simp only [List.zip, List.getElem?_zipWith_eq_some] at hx
      obtain ⟨fd, g, h1, h2, rfl⟩ := hx
      exact ih i fd g m h1 h2 hm'
    have h2 : Each2 (fun (p q : FieldDecl × GoVal) => p.1 = q.1 ∧ Shuffled p.2 q.2) (fields.zip gs) (fields.zip gs') := by
      have := hg.1
      refine ⟨by simp; omega, fun i x y hx hy => ?_⟩
      simp only [List.zip, List.getElem?_zipWith_eq_some] at hx hy
      obtain ⟨fd, g, h1, h2, rfl⟩ := hx
      obtain ⟨fd', g', h3, h4, rfl⟩ := hy
      rw [h1] at h3
      cases h3
      exact ⟨rfl, hg.2 i _ _ h2 h4⟩
    have h3 : Each2 (fun (p : FieldDecl × GoVal) m => ∃ m', Enc Γ F (.field p.1) p.2 (.obj m') ∧ SameDoc (.obj m) (.obj m')) (fields.zip gs') ms := by
      refine h2.symm.comp (fun x y z hxy hyz => ?_) h1
      obtain ⟨jv', h4, h5⟩ := hyz _ hxy.2
      obtain ⟨_, m', rfl, _⟩ := h5.of_obj
      rw [hxy.1] at h4
      exact ⟨m', h4, h5⟩
    obtain ⟨ms', h4, h5⟩ := h3.choose (R := fun (p : FieldDecl × GoVal) m => Enc Γ F (.field p.1) p.2 (.obj m))
      (Q := fun m m' => SameDoc (.obj m) (.obj m')) fun x y hxy => by obtain ⟨d', h1, h2⟩ := h3.mem hxy; exact ⟨d', h1, h2⟩
    refine ⟨_, .struct (ms := ms') hd (hg.1.trans hl) (h5.1.trans hm) ?_, .flatten h5⟩
    intro i fd g m hf hgi hmi
    refine h4.2 i (fd, g) m ?_ hmi
    simp only [List.zip, List.getElem?_zipWith_eq_some]
    exact ⟨fd, g, hf, hgi, rfl⟩
  | namedScalar hd h => intro w hw; rw [hw.scalar h]; exact ⟨_, .namedScalar hd h, .refl _⟩
  | namedTime hd h => intro w hw; cases hw; exact ⟨_, .namedTime hd h, .refl _⟩
  | namedUUID b hd => intro w hw; cases hw; exact ⟨_, .namedUUID b hd, .refl _⟩
  | namedNil hd hu => intro w hw; cases hw; exact ⟨_, .namedNil hd hu, .refl _⟩
  | namedBytes b hd => intro w hw; cases hw; exact ⟨_, .namedBytes b hd, .refl _⟩
  | namedFixed b hd => intro w hw; cases hw; exact ⟨_, .namedFixed b hd, .refl _⟩
  | namedList hd hb hu hv hl h ih =>
    intro w hw
    obtain ⟨es', h1, h2⟩ := hw.listing hv
    obtain ⟨docs', h3, h4⟩ := docs_shuffled hl ih h2
    exact ⟨_, .namedList hd hb hu h1 h3.1 h3.2, h4⟩
  | namedMap hd hl h ih =>
    intro w hw
    obtain ⟨kvs', docs', rfl, h1, h2⟩ := map_shuffled hl h ih hw
    exact ⟨_, .namedMap hd h1.1 h1.2, h2⟩
  | namedName hd hu h ih =>
    intro w hw
    obtain ⟨jv', h1, h2⟩ := ih w hw
    exact ⟨jv', .namedName hd hu h1, h2⟩
  | omitted h => intro w hw; exact ⟨_, .omitted (omitted_shuffled hB hw h), .refl _⟩
  | @empty fd k v jv hk hv ho h =>
    intro w hw
    have hm : ∀ n, k ≠ .method n := by
      intro n he
      subst he
      cases h with
      | null _ h => exact h.2.2.2 n rfl
    rw [isEmpty_same hm hw hv]
    exact ⟨_, .empty hk hv ho h, .refl _⟩
  | scalarField hk hv h => intro w hw; rw [hw.scalar h]; exact ⟨_, .scalarField hk hv h, .refl _⟩
  | ptrField hk h =>
    intro w hw
    obtain ⟨v', rfl, hv⟩ := hw.of_ptr
    rw [hv.scalar h]
    exact ⟨_, .ptrField hk h, .refl _⟩
  | ptr2Field hk h =>
    intro w hw
    obtain ⟨v', rfl, hv⟩ := hw.of_ptr
    obtain ⟨v'', rfl, hv2⟩ := hv.of_ptr
    rw [hv2.scalar h]
    exact ⟨_, .ptr2Field hk h, .refl _⟩
  | timeField hk hz => intro w hw; cases hw; exact ⟨_, .timeField hk hz, .refl _⟩
  | timePtrField hk =>
    intro w hw
    obtain ⟨v', rfl, hv⟩ := hw.of_ptr
    cases hv
    exact ⟨_, .timePtrField hk, .refl _⟩
  | uuidField hk => intro w hw; cases hw; exact ⟨_, .uuidField hk, .refl _⟩
  | uuidPtrField hk =>
    intro w hw
    obtain ⟨v', rfl, hv⟩ := hw.of_ptr
    cases hv
    exact ⟨_, .uuidPtrField hk, .refl _⟩
  | methodField hk hn ho h ih =>
    intro w hw
    obtain ⟨jv', h1, h2⟩ := ih w hw
    exact ⟨_, .methodField hk hn (fun h => isZeroIs_shuffled hB hw (ho h)) h1, .one h2⟩
  | methodPtrField hk h ih =>
    intro w hw
    obtain ⟨v', rfl, hv⟩ := hw.of_ptr
    obtain ⟨jv', h1, h2⟩ := ih v' hv
    exact ⟨_, .methodPtrField hk h1, .one h2⟩
  | spliced hk hn hz h ih =>
    intro w hw
    obtain ⟨jv', h1, h2⟩ := ih w hw
    obtain ⟨_, kvs', rfl, _⟩ := h2.of_obj
    exact ⟨_, .spliced hk hn (isZeroIs_shuffled hB hw hz) h1, h2⟩
  | mapField hk hl h ih =>
    intro w hw
    obtain ⟨kvs', docs', rfl, h1, h2⟩ := map_shuffled hl h ih hw
    exact ⟨_, .mapField hk h1.1 h1.2, .one h2⟩
  | listField hk hv hl h ih =>
    intro w hw
    obtain ⟨es', h1, h2⟩ := hw.listing hv
    obtain ⟨docs', h3, h4⟩ := docs_shuffled hl ih h2
    exact ⟨_, .listField hk h1 h3.1 h3.2, .one h4⟩
  | bytesField hk => intro w hw; cases hw; exact ⟨_, .bytesField hk, .refl _⟩
  | fixedField hk hb => intro w hw; cases hw; exact ⟨_, .fixedField hk hb, .refl _⟩

/-! ### types and parts -/

theorem hasType_shuffled (hB : OrderBlind Γ X F) {t : TExpr} {v : GoVal} (h : HasType Γ X t v) : ∀ w, Shuffled v w → HasType Γ X t w := by
  induction h with
  | @prim p v h =>
    intro w hw
    have : w = v := by cases h <;> (cases hw; rfl)
    subst this
    exact .prim h
  | time t => intro w hw; cases hw; exact .time t
  | uuid h => intro w hw; cases hw; exact .uuid h
  | nilPtr t => intro w hw; cases hw; exact .nilPtr t
  | ptr _ ih => intro w hw; obtain ⟨v', rfl, hv⟩ := hw.of_ptr; exact .ptr (ih v' hv)
  | nilSlice t => intro w hw; cases hw; exact .nilSlice t
  | slice hb _ hs ih =>
    intro w hw
    obtain ⟨es', rfl, h⟩ := hw.of_slice
    refine .slice hb (fun y hy => ?_) hs
    obtain ⟨i, hi, rfl⟩ := List.getElem_of_mem hy
    have hi' := hi
    rw [h.1] at hi'
    exact ih _ (List.getElem_mem hi') _ (h.2 i _ _ (List.getElem?_eq_getElem hi') (List.getElem?_eq_getElem hi))
  | bytes b => intro w hw; cases hw; exact .bytes b
  | array hb hl _ ih =>
    intro w hw
    obtain ⟨es', rfl, h⟩ := hw.of_arr
    refine .array hb (h.1.trans hl) fun y hy => ?_
    obtain ⟨i, hi, rfl⟩ := List.getElem_of_mem hy
    have hi' := hi
    rw [h.1] at hi'
    exact ih _ (List.getElem_mem hi') _ (h.2 i _ _ (List.getElem?_eq_getElem hi') (List.getElem?_eq_getElem hi))
  | barr hl => intro w hw; cases hw; exact .barr hl
  | nilMap t => intro w hw; cases hw; exact .nilMap t
  | map hk _ ih =>
    intro w hw
    obtain ⟨mid, kvs', rfl, hm, hp⟩ := hw.of_map
    refine .map ?_ fun kv hkv => ?_
    · refine (hp.map _).nodup_iff.1 ?_
      rw [show mid.map (·.1) = _ from pw_keys hm]; exact hk
    · obtain ⟨i, hi, rfl⟩ := List.getElem_of_mem (hp.mem_iff.2 hkv)
      have hi' := hi
      rw [hm.1] at hi'
      exact ih _ (List.getElem_mem hi') _ (hm.2 i _ _ (List.getElem?_eq_getElem hi') (List.getElem?_eq_getElem hi)).2
  | alias he hd _ ih => intro w hw; exact .alias he hd (ih w hw)
  | struct he hd hl _ ih =>
    intro w hw
    obtain ⟨gs', rfl, h⟩ := hw.of_struct
    refine .struct he hd (h.1.trans hl) fun i fd g hf hg => ?_
    have hi := (List.getElem?_eq_some_iff.1 hg).1
    rw [h.1] at hi
    exact ih i fd _ hf (List.getElem?_eq_getElem hi) _ (h.2 i _ _ (List.getElem?_eq_getElem hi) hg)
  | foreign he hd h => intro w hw; exact .foreign he hd (hB.typed _ _ _ hd hw h)

omit [Ext] in
theorem pw_mem {α β : Type} {R : α → β → Prop} {a : List α} {b : List β} (h : Each2 R a b) {y : β} (hy : y ∈ b) : ∃ x ∈ a, R x y := by
  obtain ⟨i, hi, rfl⟩ := List.getElem_of_mem hy
  have hi' := hi
  rw [h.1] at hi'
  exact ⟨_, List.getElem_mem hi', h.2 i _ _ (List.getElem?_eq_getElem hi') (List.getElem?_eq_getElem hi)⟩

omit [Ext] in
theorem part_shuffled {T t : TExpr} {V W w : GoVal} (hs : Shuffled V W) (h : Part Γ T W t w) : ∃ v, Part Γ T V t v ∧ Shuffled v w := by
  induction h with
  | self => exact ⟨V, .self, hs⟩
  | ptr _ ih =>
    obtain ⟨v, h1, h2⟩ := ih
    obtain ⟨v', rfl, h3⟩ := h2.symm.of_ptr
    exact ⟨v', .ptr h1, h3.symm⟩
  | slice _ hv ih =>
    obtain ⟨v, h1, h2⟩ := ih
    obtain ⟨es, rfl, h3⟩ := h2.symm.of_slice
    obtain ⟨x, hx, hxy⟩ := pw_mem h3.symm hv
    exact ⟨x, .slice h1 hx, hxy.symm⟩
  | array _ hv ih =>
    obtain ⟨v, h1, h2⟩ := ih
    obtain ⟨es, rfl, h3⟩ := h2.symm.of_arr
    obtain ⟨x, hx, hxy⟩ := pw_mem h3.symm hv
    exact ⟨x, .array h1 hx, hxy.symm⟩
  | map _ hv ih =>
    obtain ⟨v, h1, h2⟩ := ih
    obtain ⟨mid, kvs, rfl, h3, h4⟩ := h2.symm.of_map
    obtain ⟨x, hx, hxy⟩ := pw_mem h3.symm hv
    exact ⟨x.2, .map h1 (h4.mem_iff.1 hx), hxy.2.symm⟩
  | alias _ he hd ih =>
    obtain ⟨v, h1, h2⟩ := ih
    exact ⟨v, .alias h1 he hd, h2⟩
  | @field e n i strict fields fd gs g _ he hd hf hg ih =>
    obtain ⟨v, h1, h2⟩ := ih
    obtain ⟨gs', rfl, h3⟩ := h2.symm.of_struct
    have hi := (List.getElem?_eq_some_iff.1 hg).1
    rw [← h3.1] at hi
    have hg' := List.getElem?_eq_getElem hi
    exact ⟨_, .field h1 he hd hf hg', (h3.2 i _ _ hg hg').symm⟩

theorem Each2.symm' {gs gs' : List GoVal} (h : Each2 Shuffled gs gs') : Each2 Shuffled gs' gs := h.symm.imp fun _ _ h => h.symm

theorem pw_get {gs gs' : List GoVal} (h : Each2 Shuffled gs gs') {i : Nat} {g : GoVal} (hg : gs'[i]? = some g) :
    ∃ g0, gs[i]? = some g0 ∧ Shuffled g0 g := by
  have hi := (List.getElem?_eq_some_iff.1 hg).1
  rw [h.1] at hi
  exact ⟨_, List.getElem?_eq_getElem hi, h.2 i _ _ (List.getElem?_eq_getElem hi) hg⟩

theorem written_shuffled (hB : OrderBlind Γ X F) {T t : TExpr} {V W w : GoVal} (hs : Shuffled V W) (h : Written Γ T W t w) : ∃ v, Written Γ T V t v ∧ Shuffled v w := by
  induction h with
  | self => exact ⟨V, .self, hs⟩
  | ptr _ ih =>
    obtain ⟨v, h1, h2⟩ := ih
    obtain ⟨v', rfl, h3⟩ := h2.symm.of_ptr
    exact ⟨v', .ptr h1, h3.symm⟩
  | slice _ hv ih =>
    obtain ⟨v, h1, h2⟩ := ih
    obtain ⟨es, rfl, h3⟩ := h2.symm.of_slice
    obtain ⟨x, hx, hxy⟩ := pw_mem h3.symm hv
    exact ⟨x, .slice h1 hx, hxy.symm⟩
  | array _ hv ih =>
    obtain ⟨v, h1, h2⟩ := ih
    obtain ⟨es, rfl, h3⟩ := h2.symm.of_arr
    obtain ⟨x, hx, hxy⟩ := pw_mem h3.symm hv
    exact ⟨x, .array h1 hx, hxy.symm⟩
  | map _ hv ih =>
    obtain ⟨v, h1, h2⟩ := ih
    obtain ⟨mid, kvs, rfl, h3, h4⟩ := h2.symm.of_map
    obtain ⟨x, hx, hxy⟩ := pw_mem h3.symm hv
    exact ⟨x.2, .map h1 (h4.mem_iff.1 hx), hxy.2.symm⟩
  | alias _ he hd ih =>
    obtain ⟨v, h1, h2⟩ := ih
    exact ⟨v, .alias h1 he hd, h2⟩
  | @field e n i strict fields fd gs g _ he hd hf hg ho ih =>
    obtain ⟨v, h1, h2⟩ := ih
    obtain ⟨gs', rfl, h3⟩ := h2.symm.of_struct
    have hi := (List.getElem?_eq_some_iff.1 hg).1
    rw [← h3.1] at hi
    have hg' := List.getElem?_eq_getElem hi
    have hsg := (h3.2 i _ _ hg hg').symm
    exact ⟨_, .field h1 he hd hf hg' (fun h => ho (omitted_shuffled hB hsg h)), hsg⟩

theorem fine_shuffled (hB : OrderBlind Γ X F) {T : TExpr} {V W : GoVal} (hs : Shuffled V W) (h : Fine Γ F T V) : Fine Γ F T W where
  floats p f hp := by
    obtain ⟨v, h1, h2⟩ := written_shuffled hB hs hp
    cases h2
    exact h.floats p f h1
  commas e n strict fields gs hp he hd := by
    obtain ⟨v, h1, h2⟩ := written_shuffled hB hs hp
    obtain ⟨gs0, rfl, h3⟩ := h2.symm.of_struct
    intro i j fd fd' g g' hij hf hg hf' hg' ho ho'
    obtain ⟨g0, hg0, hsg⟩ := pw_get h3.symm' hg
    obtain ⟨g0', hg0', hsg'⟩ := pw_get h3.symm' hg'
    obtain ⟨l, fl, gl, h4, h5, h6, h7, h8⟩ := h.commas e n strict fields gs0 h1 he hd i j fd fd' g0 g0' hij hf hg0 hf' hg0'
      (fun h => ho (omitted_shuffled hB hsg h)) (fun h => ho' (omitted_shuffled hB hsg' h))
    obtain ⟨gl', h9, h10⟩ := pw_get h3 h6
    exact ⟨l, fl, gl', h4, h5, h9, fun h => h7 (omitted_shuffled hB h10 h), fun h => h8 (forgotten_shuffled hB h10 h)⟩
  splices e n strict fields gs hp he hd := by
    obtain ⟨v, h1, h2⟩ := written_shuffled hB hs hp
    obtain ⟨gs0, rfl, h3⟩ := h2.symm.of_struct
    intro i m fd g jv hf hg hj hm hz hen
    obtain ⟨g0, hg0, hsg⟩ := pw_get h3.symm' hg
    obtain ⟨jv0, h4, h5⟩ := enc_shuffled hB hen g0 hsg.symm
    obtain ⟨kv, kvs, rfl⟩ := h.splices e n strict fields gs0 h1 he hd i m fd g0 jv0 hf hg0 hj hm (isZeroIs_shuffled hB hsg.symm hz) h4
    cases h5 with
    | refl => exact ⟨_, _, rfl⟩
    | @obj kvs' mid _ hk _ hp =>
      cases kvs' with
      | cons a l => exact ⟨_, _, rfl⟩
      | nil =>
        simp at hk
        subst hk
        have := hp.length_eq
        simp at this

end VJ
