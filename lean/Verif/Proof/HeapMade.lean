import Verif.Proof.HeapFrame
import Verif.Proof.HeapMain

/-!
# Declared slice and map types always get new memory
-/

namespace VJ

/-- The cell of the receiver and new objects. -/
def Alone (h : Heap) (p : Spot) (x : MemPart) : Prop :=
  x = .cell p.loc p.idx ∨ ∃ l, h.size ≤ l ∧ (x = .map l ∨ ∃ i, x = .cell l i)

theorem Alone.cell {h : Heap} {p : Spot} {l : Loc} (i : Nat) (hl : h.size ≤ l) : Alone h p (.cell l i) := .inr ⟨l, hl, .inr ⟨i, rfl⟩⟩
theorem Alone.map {h : Heap} {p : Spot} {l : Loc} (hl : h.size ≤ l) : Alone h p (.map l) := .inr ⟨l, hl, .inl rfl⟩

theorem MemKept.write {S : MemPart → Prop} {h : Heap} {p : Spot} {w : HVal} (hp : S (.cell p.loc p.idx)) :
    MemKept S h (h.write p w) := by
  refine ⟨by simp, fun l vs e => ?_, fun l kvs e => ?_⟩
  · by_cases hl : l = p.loc
    · subst hl
      unfold Heap.write
      rw [e]
      dsimp only
      split
      · next v hv =>
        refine ⟨vs.set p.idx (v.put p.path w), ?_, by simp, fun i hi => ?_⟩
        · simp only [List.getElem?_set, (List.getElem?_eq_some_iff.mp e).1, if_true]
        · rw [List.getElem?_set_ne]
          rintro rfl
          exact hi hp
      · exact ⟨vs, e, rfl, fun _ _ => rfl⟩
    · exact ⟨vs, by rw [objs_write_ne hl]; exact e, rfl, fun _ _ => rfl⟩
  · by_cases hl : l = p.loc
    · subst hl
      refine ⟨kvs, ?_, fun _ => rfl⟩
      unfold Heap.write
      rw [e]
      exact e
    · exact ⟨kvs, by rw [objs_write_ne hl]; exact e, fun _ => rfl⟩

theorem MemKept.grow {S : MemPart → Prop} {h h' : Heap} (hg : MemGrows h h') : MemKept S h h' := by
  have hget : ∀ l x, h.objs[l]? = some x → h'.objs[l]? = some x := fun l x e => by
    rw [hg.2 l (List.getElem?_eq_some_iff.mp e).1, e]
  exact ⟨hg.1, fun l vs e => ⟨vs, hget _ _ e, rfl, fun _ _ => rfl⟩, fun l kvs e => ⟨kvs, hget _ _ e, fun _ => rfl⟩⟩

/-- Giving the receiver a new object instead of what it refers to. -/
theorem made_step {h : Heap} {p : Spot} {o : Obj} {w : HVal} (hp : p.path = []) (ho : ∀ vs, o = .cells vs → RefsInL (Alone h p) vs)
    (hw : RefsIn (Alone h p) w) (hlt : p.loc < h.size) : MemStep (Alone h p) h ((h.alloc o).write p w) := by
  refine ⟨(MemKept.grow (MemGrows.alloc h o)).trans (MemKept.write (.inl rfl)), fun l i vs v e hi hS => ?_, fun l hl => ?_⟩
  · by_cases hl : l = p.loc
    · subst hl
      rcases hS with hS | ⟨l', hl', hS⟩
      · cases hS
        unfold Heap.write at e
        split at e
        · next ws ew =>
          split at e
          · next u hu =>
            simp only [List.getElem?_set, (List.getElem?_eq_some_iff.mp ew).1, if_true, Option.some.injEq, Obj.cells.injEq] at e
            subst e
            rw [List.getElem?_set_self (List.getElem?_eq_some_iff.mp hu).1, hp] at hi
            simp only [HVal.put, Option.some.injEq] at hi
            exact hi ▸ hw
          · next hu =>
            rw [ew] at e
            simp only [Option.some.injEq, Obj.cells.injEq] at e
            subst e
            rw [hu] at hi
            cases hi
        · next hno => exact absurd e (hno _)
      · rcases hS with hS | ⟨j, hS⟩
        · cases hS
        · cases hS
          exact absurd hlt (Nat.not_lt.mpr hl')
    · rw [objs_write_ne hl] at e
      rcases hS with hS | ⟨l', hl', hS⟩
      · cases hS
        exact absurd rfl hl
      · rcases hS with hS | ⟨j, hS⟩
        · cases hS
        · cases hS
          have hlt' := (List.getElem?_eq_some_iff.mp e).1
          have : l = h.size := by
            have : l < h.size + 1 := by simpa [Heap.size, Heap.alloc] using hlt'
            exact Nat.le_antisymm (Nat.le_of_lt_succ this) hl'
          rw [this, objs_alloc_self] at e
          exact (ho vs (Option.some.inj e)).get hi
  · have : h.size + 1 ≤ l := by simpa using hl
    exact ⟨fun i => Alone.cell i (Nat.le_of_succ_le this), Alone.map (Nat.le_of_succ_le this)⟩

theorem hbytesFill_grows (len : Option Nat) (v : JV) (d : HVal) (h : Heap) :
    OutAll (fun r => MemGrows h r.2.2) (hbytesFill len v d h) := by
  unfold hbytesFill
  split
  · exact OutAll.ok (MemGrows.refl h)
  · split
    · exact OutAll.ok (MemGrows.refl h)
    · dsimp only
      split
      · split
        · exact OutAll.ok (newBytes_rep _ h).2
        · exact OutAll.ok (newBytes_rep _ h).2
      · split
        · split
          · exact OutAll.panic
          · split
            · exact OutAll.ok (MemGrows.refl h)
            · split
              · exact OutAll.ok (MemGrows.refl h)
              · exact OutAll.ok (MemGrows.refl h)
        · exact OutAll.unsupp

/-- `FillFromJSON` of a declared slice or map type. -/
theorem hrunFill_made [Ext] {M : Nat → HMethods} {h : Heap} {p : Spot} (hM : ∀ n, MKeep (Alone h p) (M n)) (hp : p.path = [])
    (hlt : p.loc < h.size) {ir : FillIR} (hir : (∃ star val x, ir = .map star val x) ∨ (∃ elt x, ir = .list none elt x) ∨ ir = .bytes none)
    (v : JV) : OutAll (fun r => MemKept (Alone h p) h r.2) (hrunFill M ir v p h) := by
  have hf : ∀ i, Alone h p (.cell h.size i) := fun i => Alone.cell i (Nat.le_refl _)
  have hfm : Alone h p (.map h.size) := Alone.map (Nat.le_refl _)
  rcases hir with ⟨star, val, x, rfl⟩ | ⟨elt, x, rfl⟩ | rfl
  · simp only [hrunFill]
    split
    · exact OutAll.ok (MemKept.refl h)
    · split
      · exact OutAll.ok (MemKept.refl h)
      · next kvs _ =>
        have s2 := made_step (o := .map []) (w := .map h.size) hp (by intro vs e; cases e) (by simpa only [RefsIn] using hfm) hlt
        exact fun r hr => (s2.trans (hmapLoop_step hM (fun v h hc => hrunExtr_var hM x 0 v hc) hfm kvs _ s2.2 r hr)).1
  · simp only [hrunFill]
    split
    · exact OutAll.ok (MemKept.refl h)
    · split
      · exact OutAll.ok (MemKept.refl h)
      · next l _ =>
        refine OutAll.bind (hzeroT_within hM elt) fun z hz => ?_
        have s2 := made_step (o := .cells (List.replicate l.length z)) (w := .slice h.size 0 l.length l.length) hp
          (by intro vs e; cases e; exact RefsInL.replicate _ hz) (by simp only [RefsIn]; exact fun i _ _ => hf i) hlt
        refine OutAll.bind (hsliceLoop_step (fun i a p h hc hp => hlistRound_step hM elt x i a p h hc hp)
          (fun i _ => hf i) l 0 _ s2.2) ?_
        rintro ⟨stop, n, h2⟩ s3
        exact OutAll.pure (s2.trans s3).1
  · simp only [hrunFill]
    split
    · exact OutAll.unsupp
    · exact OutAll.bind (hbytesFill_grows none v _ h) fun r hr => OutAll.pure ((MemKept.grow hr).trans (MemKept.write (.inl rfl)))

/-- What is generated for a declared slice or map type. -/
theorem genFill_made [Ext] {Γ : Env} {k : Nat} {t : TExpr} (ht : (∃ e, t = .slice e) ∨ ∃ e, t = .map e) {ir : FillIR}
    (h : genFill Γ k (.alias t) = .ok ir) :
    (∃ star val x, ir = .map star val x) ∨ (∃ elt x, ir = .list none elt x) ∨ ir = .bytes none := by
  rcases ht with ⟨e, rfl⟩ | ⟨e, rfl⟩
  · simp only [genFill] at h
    split at h
    · cases h; exact .inr (.inr rfl)
    · split at h
      · cases h
      · cases hr : typedValue Γ k (Fld.prepare Γ false e {} false true) .index with
        | ok r =>
          rw [hr] at h
          simp only [Out.ok_bind] at h
          split at h
          · cases h
          · split at h
            · cases h
            · cases h
            · cases h; exact .inr (.inl ⟨_, _, rfl⟩)
        | panic => rw [hr] at h; cases h
        | loop => rw [hr] at h; cases h
        | unsupp => rw [hr] at h; cases h
  · simp only [genFill] at h
    cases hr : typedValue Γ k (Fld.prepare Γ false e {} false true) .index with
    | ok r =>
      rw [hr] at h
      simp only [Out.ok_bind] at h
      repeat' split at h
      all_goals first | (cases h; done) | (cases h; exact .inl ⟨_, _, _, rfl⟩)
    | panic => rw [hr] at h; cases h
    | loop => rw [hr] at h; cases h
    | unsupp => rw [hr] at h; cases h

/-- What is kept apart from `S` keeps its meaning. -/
theorem MemKept.obj {S : MemPart → Prop} {h h' : Heap} (hk : MemKept S h h') {l : Loc} (hl : l < h.size)
    (hc : ∀ i, ¬ S (.cell l i)) (hm : ¬ S (.map l)) : h'.objs[l]? = h.objs[l]? := by
  obtain ⟨o, e⟩ : ∃ o, h.objs[l]? = some o := ⟨_, List.getElem?_eq_getElem hl⟩
  cases o with
  | cells vs =>
    obtain ⟨vs', e', hn, hi⟩ := hk.cells l vs e
    have : vs' = vs := List.ext_getElem? fun i => hi i (hc i)
    rw [e', e, this]
  | map kvs =>
    obtain ⟨kvs', e', hi⟩ := hk.maps l kvs e
    rw [e', e, hi hm]

theorem MemKept.read {S : MemPart → Prop} {h h' : Heap} (hk : MemKept S h h') {q : Spot} {w : HVal} (hr : h.read q = some w)
    (hc : ¬ S (.cell q.loc q.idx)) : h'.read q = some w := by
  unfold Heap.read at hr ⊢
  split at hr
  · next vs e =>
    obtain ⟨vs', e', hn, hi⟩ := hk.cells _ vs e
    rw [e']
    dsimp only
    rw [hi _ hc]
    exact hr
  · cases hr

end VJ
