import Verif.Spec.Heap

/-!
# Reading and writing memory
-/

namespace VJ

theorem OutRel.bind {α β γ δ : Type} {R : α → β → Prop} {Q : γ → δ → Prop} {x : Out α} {y : Out β}
    {f : α → Out γ} {g : β → Out δ} (h : OutRel R x y) (hf : ∀ a b, R a b → OutRel Q (f a) (g b)) :
    OutRel Q (x >>= f) (y >>= g) := by
  cases x <;> cases y <;> simp_all [OutRel]

theorem OutRel.bindL {α β γ : Type} {R : α → β → Prop} {Q : γ → β → Prop} {x : Out α} {y : Out β}
    {f : α → Out γ} (h : OutRel R x y) (hf : ∀ a b, R a b → OutRel Q (f a) (.ok b)) :
    OutRel Q (x >>= f) y := by
  cases x <;> cases y <;> simp_all [OutRel]

theorem OutRel.bindR {α β δ : Type} {R : α → β → Prop} {Q : α → δ → Prop} {x : Out α} {y : Out β}
    {g : β → Out δ} (h : OutRel R x y) (hf : ∀ a b, R a b → OutRel Q (.ok a) (g b)) :
    OutRel Q x (y >>= g) := by
  cases x <;> cases y <;> simp_all [OutRel]

theorem OutRel.mono {α β : Type} {R Q : α → β → Prop} {x : Out α} {y : Out β}
    (h : OutRel R x y) (hf : ∀ a b, R a b → Q a b) : OutRel Q x y := by
  cases x <;> cases y <;> simp_all [OutRel]

@[simp] theorem OutRel.ok {α β : Type} {R : α → β → Prop} {a : α} {b : β} :
    OutRel R (.ok a) (.ok b) ↔ R a b := Iff.rfl

@[simp] theorem OutRel.unsupp {α β : Type} {R : α → β → Prop} : OutRel R .unsupp .unsupp := trivial
@[simp] theorem OutRel.panic {α β : Type} {R : α → β → Prop} : OutRel R .panic .panic := trivial
@[simp] theorem OutRel.loop {α β : Type} {R : α → β → Prop} : OutRel R .loop .loop := trivial

/-! ## Parts of a value -/

theorem at_append (p q : List Nat) : ∀ v : HVal, v.at (p ++ q) = (v.at p).bind (HVal.at q) := by
  induction p with
  | nil => intro v; simp [HVal.at]
  | cons i p ih =>
    intro v
    cases v <;> simp [HVal.at]
    · rename_i es; cases es[i]? <;> simp [ih]
    · rename_i es; cases es[i]? <;> simp [ih]

theorem at_put_self {p : List Nat} (w : HVal) : ∀ {v x : HVal}, v.at p = some x → (v.put p w).at p = some w := by
  induction p with
  | nil => intro v x _; simp [HVal.at, HVal.put]
  | cons i p ih =>
    intro v x h
    cases v <;> simp only [HVal.at, reduceCtorEq] at h
    all_goals
      rename_i es
      cases he : es[i]? with
      | none => simp [he] at h
      | some y =>
        rw [he] at h
        have hi : i < es.length := by
          rcases List.getElem?_eq_some_iff.mp he with ⟨hi, _⟩; exact hi
        have hy : es[i] = y := by
          rcases List.getElem?_eq_some_iff.mp he with ⟨_, hy⟩; exact hy
        simp [HVal.put, HVal.at, hi, hy, ih (by simpa using h)]

theorem put_append {p q : List Nat} (w : HVal) : ∀ {v u : HVal}, v.at p = some u →
    v.put (p ++ q) w = v.put p (u.put q w) := by
  induction p with
  | nil => intro v u h; simp [HVal.at] at h; subst h; simp [HVal.put]
  | cons i p ih =>
    intro v x h
    cases v <;> simp only [HVal.at, reduceCtorEq] at h
    all_goals
      rename_i es
      cases he : es[i]? with
      | none => simp [he] at h
      | some y =>
        rw [he] at h
        simp [HVal.put, he, ih (by simpa using h)]

theorem put_put {p : List Nat} (a b : HVal) : ∀ {v : HVal}, (v.put p a).put p b = v.put p b := by
  induction p with
  | nil => intro v; simp [HVal.put]
  | cons i p ih =>
    intro v
    cases v <;> simp only [HVal.put]
    all_goals
      rename_i es
      cases he : es[i]? with
      | none => simp [HVal.put, he]
      | some y =>
        have hi : i < es.length := by
          rcases List.getElem?_eq_some_iff.mp he with ⟨hi, _⟩; exact hi
        simp [HVal.put, hi, ih]

/-! ## Memory -/

@[simp] theorem size_write (h : Heap) (p : Spot) (w : HVal) : (h.write p w).size = h.size := by
  unfold Heap.write Heap.size
  split
  · split <;> simp
  · rfl

@[simp] theorem size_alloc (h : Heap) (o : Obj) : (h.alloc o).size = h.size + 1 := by
  simp [Heap.alloc, Heap.size]

theorem objs_alloc_lt {h : Heap} {o : Obj} {l : Loc} (hl : l < h.size) : (h.alloc o).objs[l]? = h.objs[l]? := by
  simp only [Heap.alloc]
  exact List.getElem?_append_left hl

@[simp] theorem objs_alloc_self {h : Heap} {o : Obj} : (h.alloc o).objs[h.size]? = some o := by
  simp [Heap.alloc, Heap.size]

theorem objs_write_ne {h : Heap} {p : Spot} {w : HVal} {l : Loc} (hl : l ≠ p.loc) :
    (h.write p w).objs[l]? = h.objs[l]? := by
  unfold Heap.write
  split
  · split
    · simp [hl.symm]
    · rfl
  · rfl

theorem lt_size {h : Heap} {l : Loc} {o : Obj} (he : h.objs[l]? = some o) : l < h.size := by
  rcases List.getElem?_eq_some_iff.mp he with ⟨hi, _⟩; exact hi

theorem read_lt {h : Heap} {p : Spot} {v : HVal} (he : h.read p = some v) : p.loc < h.size := by
  unfold Heap.read at he
  split at he
  · rename_i hc; exact lt_size hc
  · cases he

theorem read_congr {h h' : Heap} {p : Spot} (he : h'.objs[p.loc]? = h.objs[p.loc]?) : h'.read p = h.read p := by
  unfold Heap.read; rw [he]

theorem write_congr {h h' : Heap} {p : Spot} {w : HVal} (he : h'.objs[p.loc]? = h.objs[p.loc]?) :
    (h'.write p w).objs[p.loc]? = (h.write p w).objs[p.loc]? := by
  unfold Heap.write; rw [he]
  split
  · rename_i vs hc
    have h1 := lt_size (he.trans hc)
    have h2 := lt_size hc
    unfold Heap.size at h1 h2
    split
    · simp [h1, h2]
    · rw [he]
  · exact he

theorem read_eq {h : Heap} {p : Spot} {v : HVal} (he : h.read p = some v) :
    ∃ vs u, h.objs[p.loc]? = some (.cells vs) ∧ vs[p.idx]? = some u ∧ u.at p.path = some v := by
  unfold Heap.read at he
  split at he
  · rename_i vs hc
    cases hv : vs[p.idx]? with
    | none => simp [hv] at he
    | some u => rw [hv] at he; exact ⟨vs, u, hc, hv, by simpa using he⟩
  · cases he

theorem write_eq {h : Heap} {p : Spot} {w : HVal} {vs : List HVal} {u : HVal}
    (h1 : h.objs[p.loc]? = some (.cells vs)) (h2 : vs[p.idx]? = some u) :
    h.write p w = ⟨h.objs.set p.loc (.cells (vs.set p.idx (u.put p.path w)))⟩ := by
  unfold Heap.write; simp [h1, h2]

theorem objs_write_self {h : Heap} {p : Spot} {w : HVal} {vs : List HVal} {u : HVal}
    (h1 : h.objs[p.loc]? = some (.cells vs)) (h2 : vs[p.idx]? = some u) :
    (h.write p w).objs[p.loc]? = some (.cells (vs.set p.idx (u.put p.path w))) := by
  rw [write_eq h1 h2]
  have := lt_size h1
  unfold Heap.size at this
  simp [this]

theorem getElem?_set_self_of {α : Type} {l : List α} {i : Nat} {a b : α} (h : l[i]? = some a) :
    (l.set i b)[i]? = some b := by
  rcases List.getElem?_eq_some_iff.mp h with ⟨hi, _⟩
  simp [hi]

theorem read_write_self {h : Heap} {p : Spot} {v w : HVal} (he : h.read p = some v) :
    (h.write p w).read p = some w := by
  obtain ⟨vs, u, h1, h2, h3⟩ := read_eq he
  unfold Heap.read
  rw [objs_write_self h1 h2]
  simp [getElem?_set_self_of h2, at_put_self w h3]

theorem write_write {h : Heap} {p : Spot} {v a b : HVal} (he : h.read p = some v) :
    (h.write p a).write p b = h.write p b := by
  obtain ⟨vs, u, h1, h2, h3⟩ := read_eq he
  rw [write_eq (objs_write_self h1 h2) (getElem?_set_self_of h2), write_eq h1 h2, write_eq h1 h2]
  simp [put_put]

theorem read_part {h : Heap} {p : Spot} {i : Nat} : h.read (p.part i) = (h.read p).bind (HVal.at [i]) := by
  unfold Heap.read Spot.part
  simp only
  split
  · rename_i vs hc
    cases vs[p.idx]? <;> simp [at_append]
  · simp

theorem write_part {h : Heap} {p : Spot} {i : Nat} {v w : HVal} (he : h.read p = some v) :
    h.write (p.part i) w = h.write p (v.put [i] w) := by
  obtain ⟨vs, u, h1, h2, h3⟩ := read_eq he
  rw [write_eq h1 h2, write_eq (p := p.part i) h1 h2]
  simp [Spot.part, put_append w h3]

/-! ## What memory holds -/

mutual
/-- Only the objects a value refers to matter. -/
theorem Rep.frame {h h' : Heap} : ∀ {g : GoVal} {v : HVal} {L : List Loc}, Rep h g v L →
    (∀ l ∈ L, h'.objs[l]? = h.objs[l]?) → Rep h' g v L
  | .int _, _, _, hr, _ | .float _, _, _, hr, _ | .bool _, _, _, hr, _ | .str _, _, _, hr, _
  | .time _, _, _, hr, _ | .uuid _, _, _, hr, _ | .barr _, _, _, hr, _
  | .nil, _, _, hr, _ => by simpa [Rep] using hr
  | .arr es, v, L, hr, hl => by
    simp only [Rep] at hr ⊢
    obtain ⟨vs, rfl, hr⟩ := hr
    exact ⟨vs, rfl, RepL.frame hr hl⟩
  | .struct es, v, L, hr, hl => by
    simp only [Rep] at hr ⊢
    obtain ⟨vs, rfl, hr⟩ := hr
    exact ⟨vs, rfl, RepL.frame hr hl⟩
  | .ptr g, v, L, hr, hl => by
    simp only [Rep] at hr ⊢
    obtain ⟨l, w, M, rfl, ho, hr, rfl⟩ := hr
    exact ⟨l, w, M, rfl, by rw [hl l (by simp), ho], Rep.frame hr (fun l hm => hl l (by simp [hm])), rfl⟩
  | .slice es sp, v, L, hr, hl => by
    simp only [Rep] at hr ⊢
    obtain ⟨l, be, vs, ws, af, M, N, rfl, ho, h1, h2, rfl⟩ := hr
    exact ⟨l, be, vs, ws, af, M, N, rfl, by rw [hl l (by simp), ho],
      RepL.frame h1 (fun l hm => hl l (by simp [hm])), RepL.frame h2 (fun l hm => hl l (by simp [hm])), rfl⟩
  | .bytes b, v, L, hr, hl => by
    simp only [Rep] at hr ⊢
    obtain ⟨l, be, ws, af, rfl, ho, rfl⟩ := hr
    exact ⟨l, be, ws, af, rfl, by rw [hl l (by simp), ho], rfl⟩
  | .map kvs, v, L, hr, hl => by
    simp only [Rep] at hr ⊢
    obtain ⟨l, ws, M, rfl, ho, hr, rfl⟩ := hr
    exact ⟨l, ws, M, rfl, by rw [hl l (by simp), ho], RepKV.frame hr (fun l hm => hl l (by simp [hm])), rfl⟩
theorem RepL.frame {h h' : Heap} : ∀ {gs : List GoVal} {vs : List HVal} {L : List Loc}, RepL h gs vs L →
    (∀ l ∈ L, h'.objs[l]? = h.objs[l]?) → RepL h' gs vs L
  | [], _, _, hr, _ => by simpa [RepL] using hr
  | g :: gs, vs, L, hr, hl => by
    simp only [RepL] at hr ⊢
    obtain ⟨v, vs', M, N, rfl, h1, h2, rfl⟩ := hr
    exact ⟨v, vs', M, N, rfl, Rep.frame h1 (fun l hm => hl l (by simp [hm])),
      RepL.frame h2 (fun l hm => hl l (by simp [hm])), rfl⟩
theorem RepKV.frame {h h' : Heap} : ∀ {gs : List (Str × GoVal)} {vs : List (Str × HVal)} {L : List Loc},
    RepKV h gs vs L → (∀ l ∈ L, h'.objs[l]? = h.objs[l]?) → RepKV h' gs vs L
  | [], _, _, hr, _ => by simpa [RepKV] using hr
  | (k, g) :: gs, vs, L, hr, hl => by
    simp only [RepKV] at hr ⊢
    obtain ⟨v, vs', M, N, rfl, h1, h2, rfl⟩ := hr
    exact ⟨v, vs', M, N, rfl, Rep.frame h1 (fun l hm => hl l (by simp [hm])),
      RepKV.frame h2 (fun l hm => hl l (by simp [hm])), rfl⟩
end

mutual
/-- The objects a value refers to exist. -/
theorem Rep.lt {h : Heap} : ∀ {g : GoVal} {v : HVal} {L : List Loc}, Rep h g v L → ∀ l ∈ L, l < h.size
  | .int _, _, _, hr | .float _, _, _, hr | .bool _, _, _, hr | .str _, _, _, hr
  | .time _, _, _, hr | .uuid _, _, _, hr | .barr _, _, _, hr
  | .nil, _, _, hr => by simp only [Rep] at hr; simp [hr.2]
  | .arr es, v, L, hr => by
    simp only [Rep] at hr
    obtain ⟨vs, rfl, hr⟩ := hr
    exact RepL.lt hr
  | .struct es, v, L, hr => by
    simp only [Rep] at hr
    obtain ⟨vs, rfl, hr⟩ := hr
    exact RepL.lt hr
  | .ptr g, v, L, hr => by
    simp only [Rep] at hr
    obtain ⟨l, w, M, rfl, ho, hr, rfl⟩ := hr
    simpa using ⟨lt_size ho, Rep.lt hr⟩
  | .slice es sp, v, L, hr => by
    simp only [Rep] at hr
    obtain ⟨l, be, vs, ws, af, M, N, rfl, ho, h1, h2, rfl⟩ := hr
    intro l hl
    simp only [List.mem_cons, List.mem_append] at hl
    rcases hl with rfl | hl | hl
    · exact lt_size ho
    · exact RepL.lt h1 l hl
    · exact RepL.lt h2 l hl
  | .bytes b, v, L, hr => by
    simp only [Rep] at hr
    obtain ⟨l, be, ws, af, rfl, ho, rfl⟩ := hr
    simpa using lt_size ho
  | .map kvs, v, L, hr => by
    simp only [Rep] at hr
    obtain ⟨l, ws, M, rfl, ho, hr, rfl⟩ := hr
    simpa using ⟨lt_size ho, RepKV.lt hr⟩
theorem RepL.lt {h : Heap} : ∀ {gs : List GoVal} {vs : List HVal} {L : List Loc}, RepL h gs vs L → ∀ l ∈ L, l < h.size
  | [], _, _, hr => by simp only [RepL] at hr; simp [hr.2]
  | g :: gs, vs, L, hr => by
    simp only [RepL] at hr
    obtain ⟨v, vs', M, N, rfl, h1, h2, rfl⟩ := hr
    intro l hl
    rcases List.mem_append.mp hl with hl | hl
    · exact Rep.lt h1 l hl
    · exact RepL.lt h2 l hl
theorem RepKV.lt {h : Heap} : ∀ {gs : List (Str × GoVal)} {vs : List (Str × HVal)} {L : List Loc},
    RepKV h gs vs L → ∀ l ∈ L, l < h.size
  | [], _, _, hr => by simp only [RepKV] at hr; simp [hr.2]
  | (k, g) :: gs, vs, L, hr => by
    simp only [RepKV] at hr
    obtain ⟨v, vs', M, N, rfl, h1, h2, rfl⟩ := hr
    intro l hl
    rcases List.mem_append.mp hl with hl | hl
    · exact Rep.lt h1 l hl
    · exact RepKV.lt h2 l hl
end

/-- Only new objects. -/
def MemGrows (h h' : Heap) : Prop := h.size ≤ h'.size ∧ ∀ l, l < h.size → h'.objs[l]? = h.objs[l]?

theorem MemGrows.refl (h : Heap) : MemGrows h h := ⟨Nat.le_refl _, fun _ _ => rfl⟩

theorem MemGrows.trans {h h1 h2 : Heap} (a : MemGrows h h1) (b : MemGrows h1 h2) : MemGrows h h2 :=
  ⟨Nat.le_trans a.1 b.1, fun l hl => by rw [b.2 l (Nat.lt_of_lt_of_le hl a.1), a.2 l hl]⟩

theorem MemGrows.alloc (h : Heap) (o : Obj) : MemGrows h (h.alloc o) := ⟨by simp, fun _ hl => objs_alloc_lt hl⟩

theorem Rep.grow {h h' : Heap} {g : GoVal} {v : HVal} {L : List Loc} (hr : Rep h g v L) (hg : MemGrows h h') : Rep h' g v L :=
  hr.frame fun l hl => hg.2 l (hr.lt l hl)

theorem RepL.grow {h h' : Heap} {g : List GoVal} {v : List HVal} {L : List Loc} (hr : RepL h g v L) (hg : MemGrows h h') : RepL h' g v L :=
  hr.frame fun l hl => hg.2 l (hr.lt l hl)

theorem RepKV.grow {h h' : Heap} {g : List (Str × GoVal)} {v : List (Str × HVal)} {L : List Loc} (hr : RepKV h g v L)
    (hg : MemGrows h h') : RepKV h' g v L :=
  hr.frame fun l hl => hg.2 l (hr.lt l hl)

/-- A new array of bytes. -/
theorem newBytes_rep (b : List UInt8) (h : Heap) :
    Rep (newBytes b h).2 (.bytes b) (newBytes b h).1 [h.size] ∧ MemGrows h (newBytes b h).2 := by
  refine ⟨?_, MemGrows.alloc h _⟩
  simp only [newBytes, Rep]
  exact ⟨h.size, [], [], [], by simp, by simp, rfl⟩

end VJ
