import Verif.Proof.HeapFrame

/-!
# What `Reset` can change in memory, however its objects are shared
-/

namespace VJ

section
variable {S : MemPart → Prop}

theorem clearsInL_iff : ∀ {vs : List HVal}, ClearsInL S vs ↔ ∀ v ∈ vs, ClearsIn S v
  | [] => by simp [ClearsInL]
  | v :: vs => by simp [ClearsInL, clearsInL_iff (vs := vs)]

theorem ClearsInL.get {vs : List HVal} {i : Nat} {v : HVal} (h : ClearsInL S vs) (hi : vs[i]? = some v) : ClearsIn S v :=
  clearsInL_iff.mp h v (List.mem_of_getElem? hi)

theorem ClearsInL.set {vs : List HVal} {i : Nat} {v : HVal} (h : ClearsInL S vs) (hv : ClearsIn S v) : ClearsInL S (vs.set i v) := by
  rw [clearsInL_iff] at h ⊢
  intro w hw
  rcases List.mem_or_eq_of_mem_set hw with hw | rfl
  · exact h w hw
  · exact hv

theorem ClearsInL.replicate {v : HVal} (n : Nat) (h : ClearsIn S v) : ClearsInL S (List.replicate n v) := by
  rw [clearsInL_iff]
  intro w hw
  rw [(List.mem_replicate.mp hw).2]
  exact h

theorem ClearsIn.at : ∀ {p : List Nat} {v w : HVal}, ClearsIn S v → HVal.at p v = some w → ClearsIn S w
  | [], v, w, h, e => by simp only [HVal.at, Option.some.injEq] at e; exact e ▸ h
  | i :: p, .struct fs, w, h, e => by
    simp only [HVal.at, Option.bind_eq_some_iff] at e
    obtain ⟨u, hu, e⟩ := e
    simp only [ClearsIn] at h
    exact ClearsIn.at (h.get hu) e
  | i :: p, .arr fs, w, h, e => by
    simp only [HVal.at, Option.bind_eq_some_iff] at e
    obtain ⟨u, hu, e⟩ := e
    simp only [ClearsIn] at h
    exact ClearsIn.at (h.get hu) e
  | _ :: _, .int _, _, _, e | _ :: _, .float _, _, _, e | _ :: _, .bool _, _, _, e | _ :: _, .str _, _, _, e
  | _ :: _, .time _, _, _, e | _ :: _, .uuid _, _, _, e | _ :: _, .nil, _, _, e | _ :: _, .ptr _, _, _, e
  | _ :: _, .slice .., _, _, e | _ :: _, .map _, _, _, e | _ :: _, .bytes .., _, _, e | _ :: _, .barr _, _, _, e => by
    simp [HVal.at] at e

theorem ClearsIn.put : ∀ {p : List Nat} {v w : HVal}, ClearsIn S v → ClearsIn S w → ClearsIn S (v.put p w)
  | [], v, w, _, h => by simpa only [HVal.put] using h
  | i :: p, .struct fs, w, hv, hw => by
    simp only [HVal.put]
    cases hi : fs[i]? with
    | none => exact hv
    | some u =>
      simp only [ClearsIn] at hv ⊢
      exact hv.set (ClearsIn.put (hv.get hi) hw)
  | i :: p, .arr fs, w, hv, hw => by
    simp only [HVal.put]
    cases hi : fs[i]? with
    | none => exact hv
    | some u =>
      simp only [ClearsIn] at hv ⊢
      exact hv.set (ClearsIn.put (hv.get hi) hw)
  | _ :: _, .int _, _, h, _ | _ :: _, .float _, _, h, _ | _ :: _, .bool _, _, h, _ | _ :: _, .str _, _, h, _
  | _ :: _, .time _, _, h, _ | _ :: _, .uuid _, _, h, _ | _ :: _, .nil, _, h, _ | _ :: _, .ptr _, _, h, _
  | _ :: _, .slice .., _, h, _ | _ :: _, .map _, _, h, _ | _ :: _, .bytes .., _, h, _ | _ :: _, .barr _, _, h, _ => by
    simpa only [HVal.put] using h

theorem ClearStep.refl {h : Heap} (hc : ClearClosed S h) : ClearStep S h h := ⟨MemKept.refl h, hc⟩

theorem ClearStep.trans {h h1 h2 : Heap} (a : ClearStep S h h1) (b : ClearStep S h1 h2) : ClearStep S h h2 := ⟨a.1.trans b.1, b.2⟩

theorem ClearClosed.read {h : Heap} {p : Spot} {w : HVal} (hc : ClearClosed S h) (hp : S (.cell p.loc p.idx)) (hr : h.read p = some w) :
    ClearsIn S w := by
  unfold Heap.read at hr
  split at hr
  · next vs e =>
    simp only [Option.bind_eq_some_iff] at hr
    obtain ⟨u, hu, hw⟩ := hr
    exact (hc.cells _ _ _ _ e hu hp).at hw
  · simp at hr

/-- Replacing an object by one of the same kind. -/
theorem ClearStep.set {h : Heap} {l : Loc} {o : Obj} (hc : ClearClosed S h)
    (hw : ∀ i v vs, o = .cells vs → vs[i]? = some v → S (.cell l i) → ClearsIn S v)
    (hm : ∀ k v kvs, o = .map kvs → (k, v) ∈ kvs → S (.map l) → ClearsIn S v)
    (hcells : ∀ vs, h.objs[l]? = some (.cells vs) → ∃ vs', o = .cells vs' ∧ vs'.length = vs.length ∧ ∀ i, ¬ S (.cell l i) → vs'[i]? = vs[i]?)
    (hmaps : ∀ kvs, h.objs[l]? = some (.map kvs) → ∃ kvs', o = .map kvs' ∧ (¬ S (.map l) → kvs' = kvs)) :
    ClearStep S h ⟨h.objs.set l o⟩ := by
  have hset : ∀ l', (h.objs.set l o)[l']? = if l = l' then (if l < h.objs.length then some o else none) else h.objs[l']? :=
    fun l' => by rw [List.getElem?_set]
  refine ⟨⟨by simp [Heap.size], fun l' vs e => ?_, fun l' kvs e => ?_⟩, fun l' i vs v e hi hS => ?_, fun l' kvs k v e hi hS => ?_, fun l' hl => ?_⟩
  · by_cases hl : l = l'
    · subst hl
      have hlt := (List.getElem?_eq_some_iff.mp e).1
      obtain ⟨vs', rfl, n, k⟩ := hcells vs e
      exact ⟨vs', by rw [hset, if_pos rfl, if_pos hlt], n, k⟩
    · exact ⟨vs, by rw [hset, if_neg hl, e], rfl, fun _ _ => rfl⟩
  · by_cases hl : l = l'
    · subst hl
      have hlt := (List.getElem?_eq_some_iff.mp e).1
      obtain ⟨vs', rfl, k⟩ := hmaps kvs e
      exact ⟨vs', by rw [hset, if_pos rfl, if_pos hlt], k⟩
    · exact ⟨kvs, by rw [hset, if_neg hl, e], fun _ => rfl⟩
  · rw [hset] at e
    by_cases hl : l = l'
    · subst hl
      rw [if_pos rfl] at e
      split at e
      · exact hw i v vs (Option.some.inj e) hi hS
      · cases e
    · rw [if_neg hl] at e
      exact hc.cells _ _ _ _ e hi hS
  · rw [hset] at e
    by_cases hl : l = l'
    · subst hl
      rw [if_pos rfl] at e
      split at e
      · exact hm k v kvs (Option.some.inj e) hi hS
      · cases e
    · rw [if_neg hl] at e
      exact hc.maps _ _ _ _ e hi hS
  · exact hc.fresh l' (by simpa [Heap.size] using hl)

theorem ClearStep.write {h : Heap} {p : Spot} {w : HVal} (hc : ClearClosed S h) (hp : S (.cell p.loc p.idx)) (hw : ClearsIn S w) :
    ClearStep S h (h.write p w) := by
  unfold Heap.write
  split
  · next vs e =>
    split
    · next v hv =>
      refine ClearStep.set hc ?_ (fun _ _ _ e' => by cases e') ?_ ?_
      · intro i u vs' e' hi hS
        cases e'
        rw [List.getElem?_set] at hi
        split at hi
        · next hi' =>
          split at hi
          · cases hi
            exact (hc.cells _ _ _ _ e hv hp).put hw
          · cases hi
        · exact hc.cells _ _ _ _ e hi hS
      · intro vs' e'
        rw [e] at e'
        cases e'
        refine ⟨_, rfl, by simp, fun i hi => ?_⟩
        rw [List.getElem?_set_ne]
        rintro rfl
        exact hi hp
      · intro kvs e'
        rw [e] at e'
        cases e'
    · exact ClearStep.refl hc
  · exact ClearStep.refl hc

/-- Replacing the entries of a map. -/
theorem ClearStep.setMap {h : Heap} {l : Loc} {kvs kvs' : List (Str × HVal)} (hc : ClearClosed S h) (hl : S (.map l))
    (e : h.objs[l]? = some (.map kvs)) (hk : ∀ k v, (k, v) ∈ kvs' → ClearsIn S v) : ClearStep S h ⟨h.objs.set l (.map kvs')⟩ := by
  refine ClearStep.set hc (fun _ _ _ e' => by cases e') ?_ ?_ ?_
  · intro k v kvs'' e' hm _
    cases e'
    exact hk k v hm
  · intro vs' e'; rw [e] at e'; cases e'
  · intro kvs'' e'
    exact ⟨_, rfl, fun hi => absurd hl hi⟩

theorem ClearStep.alloc {h : Heap} {v : HVal} (hc : ClearClosed S h) (hv : ClearsIn S v) :
    ClearStep S h (h.alloc (.cells [v])) := by
  have hget : ∀ l x, h.objs[l]? = some x → (h.alloc (.cells [v])).objs[l]? = some x := fun l x e => by
    have hlt := (List.getElem?_eq_some_iff.mp e).1
    simp only [Heap.alloc]
    rw [List.getElem?_append_left hlt, e]
  have hnew : ∀ {l : Loc} {x : Obj}, (h.alloc (.cells [v])).objs[l]? = some x → h.objs[l]? = some x ∨ x = .cells [v] := by
    intro l x e
    simp only [Heap.alloc] at e
    by_cases hlt : l < h.objs.length
    · rw [List.getElem?_append_left hlt] at e
      exact .inl e
    · rw [List.getElem?_append_right (Nat.not_lt.mp hlt)] at e
      have := List.mem_of_getElem? e
      simp only [List.mem_singleton] at this
      exact .inr this
  refine ⟨⟨by simp [Heap.size, Heap.alloc], fun l vs e => ⟨vs, hget _ _ e, rfl, fun _ _ => rfl⟩,
    fun l kvs e => ⟨kvs, hget _ _ e, fun _ => rfl⟩⟩, fun l i vs u e hi hS => ?_, fun l kvs k u e hi hS => ?_, fun l hl => ?_⟩
  · rcases hnew e with e | e
    · exact hc.cells _ _ _ _ e hi hS
    · cases e
      have := List.mem_of_getElem? hi
      simp only [List.mem_singleton] at this
      exact this ▸ hv
  · rcases hnew e with e | e
    · exact hc.maps _ _ _ _ e hi hS
    · cases e
  · refine hc.fresh l ?_
    have : h.size + 1 ≤ l := by simpa [Heap.size, Heap.alloc] using hl
    exact Nat.le_of_succ_le this

theorem hzeroT_clears {M : Nat → HMethods} (hM : ∀ n, MClear S (M n)) : ∀ t, OutAll (ClearsIn S) (hzeroT M t)
  | .prim p => OutAll.ok (by cases p <;> simp [Prim.hzero, ClearsIn])
  | .named n | .sel n => (hM n).zero
  | .time | .uuid | .star _ | .slice _ | .map _ => OutAll.ok (by simp [ClearsIn])
  | .structT => OutAll.unsupp
  | .array n t => by
    unfold hzeroT
    split
    · exact OutAll.ok (by simp [ClearsIn])
    · refine OutAll.bind (hzeroT_clears hM t) fun z hz => OutAll.pure ?_
      simp only [ClearsIn]
      exact ClearsInL.replicate n hz

theorem hzeroFields_clears {M : Nat → HMethods} (hM : ∀ n, MClear S (M n)) :
    ∀ fs : List FieldDecl, OutAll (ClearsInL S) (hzeroFields M fs)
  | [] => OutAll.ok (by simp [ClearsInL])
  | f :: fs => by
    unfold hzeroFields
    refine OutAll.bind (hzeroT_clears hM f.typ) fun z hz => ?_
    refine OutAll.bind (hzeroFields_clears hM fs) fun zs hzs => OutAll.pure ?_
    simp only [ClearsInL]
    exact ⟨hz, hzs⟩

theorem hresetElems_step {f : Spot → Heap → Out Heap}
    (hf : ∀ p h, ClearClosed S h → S (.cell p.loc p.idx) → OutAll (ClearStep S h) (f p h)) {p : Spot} (hp : S (.cell p.loc p.idx)) :
    ∀ (n i : Nat) (h : Heap), ClearClosed S h → OutAll (ClearStep S h) (hresetElems f p n i h)
  | 0, i, h, hc => OutAll.ok (ClearStep.refl hc)
  | n + 1, i, h, hc => by
    unfold hresetElems
    split
    · next l off len cap e =>
      have hin := hc.read hp e
      simp only [ClearsIn] at hin
      split
      · next hi =>
        refine OutAll.bind (hf (.cell l (off + i)) h hc (hin _ (Nat.le_add_right _ _) (Nat.add_lt_add_left hi _))) fun h1 st => ?_
        intro h2 e2
        exact st.trans (hresetElems_step hf hp n (i + 1) h1 st.2 h2 e2)
      · exact OutAll.panic
    · exact OutAll.unsupp

theorem zeroBytes_step {l off : Nat} {h : Heap} (hc : ClearClosed S h) :
    ∀ n, (∀ i, off ≤ i → i < off + n → S (.cell l i)) → ClearStep S h (zeroBytes l off n h)
  | 0, _ => ClearStep.refl hc
  | n + 1, hi => by
    have st := zeroBytes_step hc n fun i h1 h2 => hi i h1 (by omega)
    exact st.trans (ClearStep.write st.2 (hi _ (by simp [Spot.cell]) (by simp [Spot.cell])) (by simp [ClearsIn]))

theorem htruncate_step {p : Spot} {h : Heap} (hc : ClearClosed S h) (hp : S (.cell p.loc p.idx)) :
    OutAll (ClearStep S h) (htruncate p h) := by
  unfold htruncate
  split
  · exact OutAll.ok (ClearStep.write hc hp (by simp only [ClearsIn]; intro i h1 h2; omega))
  · exact OutAll.ok (ClearStep.write hc hp (by simp only [ClearsIn]; intro i h1 h2; omega))
  · exact OutAll.ok (ClearStep.refl hc)
  · exact OutAll.unsupp

theorem hrunReset_step {M : Nat → HMethods} (hM : ∀ n, MClear S (M n)) :
    ∀ (x : RIR) (p : Spot) (h : Heap), ClearClosed S h → S (.cell p.loc p.idx) → OutAll (ClearStep S h) (hrunReset M x p h) := by
  intro x
  induction x with
  | slice x ih =>
    intro p h hc hp
    unfold hrunReset
    split
    · exact OutAll.ok (ClearStep.refl hc)
    · refine OutAll.bind (hresetElems_step ih hp _ 0 h hc) fun h1 st => ?_
      intro h2 e2
      exact st.trans (htruncate_step st.2 hp h2 e2)
    · exact OutAll.unsupp
  | bytes =>
    intro p h hc hp
    unfold hrunReset
    split
    · exact OutAll.ok (ClearStep.refl hc)
    · next l off len cap e =>
      have hin := hc.read hp e
      simp only [ClearsIn] at hin
      have st := zeroBytes_step hc len hin
      exact OutAll.ok (st.trans (ClearStep.write st.2 hp (by simp only [ClearsIn]; intro i h1 h2; omega)))
    · exact OutAll.unsupp
  | const t =>
    intro p h hc hp
    unfold hrunReset
    exact OutAll.bind (hzeroT_clears hM t) fun z hz => OutAll.pure (ClearStep.write hc hp hz)
  | clearMap =>
    intro p h hc hp
    unfold hrunReset
    split
    · exact OutAll.ok (ClearStep.refl hc)
    · next l e =>
      have hin := hc.read hp e
      simp only [ClearsIn] at hin
      unfold Heap.entries
      split
      · next kvs eo =>
        simp only [Out.ok_bind]
        split
        · exact OutAll.pure (ClearStep.write hc hp (by simp [ClearsIn]))
        · exact OutAll.pure (ClearStep.setMap hc hin eo (by simp))
      · exact OutAll.unsupp
    · exact OutAll.unsupp
  | method n =>
    intro p h hc hp
    unfold hrunReset
    exact (hM n).reset p h hc hp

theorem hrunResets_step {M : Nat → HMethods} (hM : ∀ n, MClear S (M n)) {p : Spot} (hp : S (.cell p.loc p.idx)) :
    ∀ (xs : List RIR) (n i : Nat) (h : Heap), ClearClosed S h → OutAll (ClearStep S h) (hrunResets M p n i xs h)
  | [], 0, i, h, hc => OutAll.ok (ClearStep.refl hc)
  | [], n + 1, i, h, hc => OutAll.unsupp
  | x :: xs, 0, i, h, hc => OutAll.unsupp
  | x :: xs, n + 1, i, h, hc => by
    unfold hrunResets
    refine OutAll.bind (hrunReset_step hM x (p.part i) h hc hp) fun h1 st => ?_
    intro h2 e2
    exact st.trans (hrunResets_step hM hp xs n (i + 1) h1 st.2 h2 e2)

theorem kvSet_mem {key : Str} {v : HVal} : ∀ {kvs : List (Str × HVal)} {k : Str} {u : HVal}, (k, u) ∈ kvSet key v kvs → (k, u) ∈ kvs ∨ u = v
  | [], k, u, h => by simp [kvSet] at h; exact .inr h.2
  | (k0, v0) :: kvs, k, u, h => by
    simp only [kvSet] at h
    split at h
    · rcases List.mem_cons.mp h with h | h
      · cases h; exact .inr rfl
      · exact .inl (List.mem_cons_of_mem _ h)
    · rcases List.mem_cons.mp h with h | h
      · exact .inl (h ▸ List.mem_cons_self)
      · rcases kvSet_mem h with h | h
        · exact .inl (List.mem_cons_of_mem _ h)
        · exact .inr h

theorem entryPut_step {l i : Nat} {k : Str} {v : HVal} {h : Heap} (hc : ClearClosed S h) (hl : S (.map l)) (hv : ClearsIn S v) :
    OutAll (ClearStep S h) (h.entryPut l i k v) := by
  unfold Heap.entryPut
  split
  · next kvs e =>
    split
    · refine OutAll.ok (ClearStep.setMap hc hl e fun k' u hm => ?_)
      rcases List.mem_or_eq_of_mem_set hm with hm | hm
      · exact hc.maps _ _ _ _ e hm hl
      · cases hm; exact hv
    · unfold Heap.mapPut
      rw [e]
      refine OutAll.ok (ClearStep.setMap hc hl e fun k' u hm => ?_)
      rcases kvSet_mem hm with hm | hm
      · exact hc.maps _ _ _ _ e hm hl
      · exact hm ▸ hv
  · exact OutAll.unsupp

theorem hresetEntries_step {f : Spot → Heap → Out Heap}
    (hf : ∀ p h, ClearClosed S h → S (.cell p.loc p.idx) → OutAll (ClearStep S h) (f p h)) {l : Loc} (hl : S (.map l)) :
    ∀ (n i : Nat) (h : Heap), ClearClosed S h → OutAll (ClearStep S h) (hresetEntries f l n i h)
  | 0, i, h, hc => OutAll.ok (ClearStep.refl hc)
  | n + 1, i, h, hc => by
    unfold hresetEntries Heap.entries
    split
    · next kvs e =>
      simp only [Out.ok_bind]
      split
      · exact OutAll.pure (ClearStep.refl hc)
      · next k v hi =>
        have s1 := ClearStep.alloc hc (hc.maps _ _ _ _ e (List.mem_of_getElem? hi) hl)
        have hS : S (.cell h.size 0) := (hc.fresh _ (Nat.le_refl _)).1 0
        refine OutAll.bind (hf (.cell h.size 0) _ s1.2 hS) fun h1 st => ?_
        split
        · next w hw =>
          refine OutAll.bind (entryPut_step st.2 hl (st.2.read hS hw)) fun h2 st2 => ?_
          intro h3 e3
          exact ((s1.trans st).trans st2).trans (hresetEntries_step hf hl n (i + 1) h2 st2.2 h3 e3)
        · exact OutAll.unsupp
    · exact OutAll.unsupp

theorem hrunResetDecl_step {M : Nat → HMethods} (hM : ∀ n, MClear S (M n)) (ir : ResetIR) {p : Spot} {h : Heap} (hc : ClearClosed S h)
    (hp : S (.cell p.loc p.idx)) : OutAll (ClearStep S h) (hrunResetDecl M ir p h) := by
  cases ir with
  | struct xs =>
    simp only [hrunResetDecl]
    split
    · exact hrunResets_step hM hp _ _ _ _ hc
    · exact OutAll.unsupp
  | map x =>
    simp only [hrunResetDecl]
    split
    · exact OutAll.ok (ClearStep.refl hc)
    · next l e =>
      have hin := hc.read hp e
      simp only [ClearsIn] at hin
      unfold Heap.entries
      split
      · exact hresetEntries_step (hrunReset_step hM x) hin _ _ _ hc
      · exact OutAll.unsupp
    · exact OutAll.unsupp
  | list x =>
    cases x with
    | none => exact htruncate_step hc hp
    | some n =>
      simp only [hrunResetDecl]
      split
      · exact OutAll.ok (ClearStep.refl hc)
      · refine OutAll.bind (hresetElems_step (fun p h hc hp => (hM n).reset p h hc hp) hp _ 0 h hc) fun h1 st => ?_
        intro h2 e2
        exact st.trans (htruncate_step st.2 hp h2 e2)
      · exact OutAll.unsupp
  | const t =>
    simp only [hrunResetDecl]
    exact OutAll.bind (hzeroT_clears hM t) fun z hz => OutAll.pure (ClearStep.write hc hp hz)
  | bytes => exact htruncate_step hc hp
  | single x => exact hrunReset_step hM x p h hc hp

theorem hmethods_clear [Ext] {Γ : Env} {X : Nat → HMethods} (hX : ∀ n, MClear S (X n)) : ∀ k n, MClear S (Γ.hmethods X k n) := by
  intro k
  induction k with
  | zero => intro n; exact ⟨OutAll.loop, fun _ _ _ _ => OutAll.loop⟩
  | succ k ih =>
    intro n
    unfold Env.hmethods
    cases Γ.decl n with
    | none => exact hX n
    | some d =>
      refine ⟨?_, fun p h hc hp => ?_⟩
      · cases d with
        | struct strict fields =>
          refine OutAll.bind (hzeroFields_clears ih fields) fun zs hzs => OutAll.pure ?_
          simpa only [ClearsIn] using hzs
        | «alias» t => exact hzeroT_clears ih t
      · refine OutAll.bind (Q := fun _ => True) (fun _ _ => trivial) fun ir _ => ?_
        exact hrunResetDecl_step ih ir hc hp

end

theorem ClearTouches.refs {h : Heap} {p : Spot} : ∀ {v : HVal}, (∀ x, ClearReach h v x → ClearTouches h p x) → ClearsIn (ClearTouches h p) v
  | .struct fs, hx => by
    simp only [ClearsIn]
    exact refsL fs fun w hw x hc => hx x (.field hw hc)
  | .arr fs, hx => by
    simp only [ClearsIn]
    exact refsL fs fun w hw x hc => hx x (.item hw hc)
  | .slice l off len cap, hx => by
    simp only [ClearsIn]
    exact fun i h1 h2 => hx _ (.slice h1 h2)
  | .bytes l off len cap, hx => by
    simp only [ClearsIn]
    exact fun i h1 h2 => hx _ (.byte h1 h2)
  | .map l, hx => by
    simp only [ClearsIn]
    exact hx _ .map
  | .int _, _ | .float _, _ | .bool _, _ | .str _, _ | .time _, _ | .uuid _, _ | .nil, _ | .ptr _, _ | .barr _, _ => by simp [ClearsIn]
where
  refsL {h : Heap} {p : Spot} : ∀ fs : List HVal, (∀ w ∈ fs, ∀ x, ClearReach h w x → ClearTouches h p x) → ClearsInL (ClearTouches h p) fs
    | [], _ => by simp [ClearsInL]
    | w :: fs, hx => by
      simp only [ClearsInL]
      exact ⟨ClearTouches.refs (hx w List.mem_cons_self), refsL fs fun w' hw' => hx w' (List.mem_cons_of_mem _ hw')⟩

/-- What is reached from a cell that is reached is reached. -/
theorem ClearReach.trans {h : Heap} {v : HVal} {y : MemPart} (hy : ClearReach h v y) :
    (∀ {l i : Nat} {vs : List HVal} {w : HVal} {x : MemPart}, y = .cell l i → h.objs[l]? = some (.cells vs) → vs[i]? = some w →
      ClearReach h w x → ClearReach h v x) ∧
    ∀ {l : Loc} {kvs : List (Str × HVal)} {k : Str} {w : HVal} {x : MemPart}, y = .map l → h.objs[l]? = some (.map kvs) → (k, w) ∈ kvs →
      ClearReach h w x → ClearReach h v x := by
  induction hy with
  | slice h1 h2 => exact ⟨fun ey e hi hr => by cases ey; exact .elem h1 h2 e hi hr, fun ey => by cases ey⟩
  | elem h1 h2 h3 h4 _ ih => exact ⟨fun ey e hi hr => .elem h1 h2 h3 h4 (ih.1 ey e hi hr), fun ey e hi hr => .elem h1 h2 h3 h4 (ih.2 ey e hi hr)⟩
  | byte h1 h2 => exact ⟨fun ey e hi hr => by cases ey; exact .inByte h1 h2 e hi hr, fun ey => by cases ey⟩
  | inByte h1 h2 h3 h4 _ ih => exact ⟨fun ey e hi hr => .inByte h1 h2 h3 h4 (ih.1 ey e hi hr), fun ey e hi hr => .inByte h1 h2 h3 h4 (ih.2 ey e hi hr)⟩
  | map => exact ⟨(fun ey => by cases ey), fun ey e hi hr => by cases ey; exact .entry e hi hr⟩
  | entry h1 h2 _ ih => exact ⟨fun ey e hi hr => .entry h1 h2 (ih.1 ey e hi hr), fun ey e hi hr => .entry h1 h2 (ih.2 ey e hi hr)⟩
  | field hm _ ih => exact ⟨fun ey e hi hr => .field hm (ih.1 ey e hi hr), fun ey e hi hr => .field hm (ih.2 ey e hi hr)⟩
  | item hm _ ih => exact ⟨fun ey e hi hr => .item hm (ih.1 ey e hi hr), fun ey e hi hr => .item hm (ih.2 ey e hi hr)⟩

theorem ClearTouches.closed (h : Heap) (p : Spot) : ClearClosed (ClearTouches h p) h := by
  have hread : ∀ l i vs v, h.objs[l]? = some (.cells vs) → vs[i]? = some v → h.read (.cell l i) = some v := by
    intro l i vs v e hi
    simp [Heap.read, Spot.cell, e, hi, HVal.at]
  refine ⟨fun l i vs v e hi hS => ClearTouches.refs fun x hx => ?_, fun l kvs k v e hi hS => ClearTouches.refs fun x hx => ?_, fun l hl => ?_⟩
  · rcases hS with hS | ⟨u, hu, hS⟩ | ⟨l', hl, hS⟩
    · cases hS
      exact .inr (.inl ⟨v, hread _ _ _ _ e hi, hx⟩)
    · exact .inr (.inl ⟨u, hu, hS.trans.1 rfl e hi hx⟩)
    · have hlt := (List.getElem?_eq_some_iff.mp e).1
      rcases hS with hS | ⟨j, hS⟩
      · cases hS
      · cases hS
        exact absurd hlt (Nat.not_lt.mpr hl)
  · rcases hS with hS | ⟨u, hu, hS⟩ | ⟨l', hl, hS⟩
    · cases hS
    · exact .inr (.inl ⟨u, hu, hS.trans.2 rfl e hi hx⟩)
    · have hlt := (List.getElem?_eq_some_iff.mp e).1
      rcases hS with hS | ⟨j, hS⟩
      · cases hS
        exact absurd hlt (Nat.not_lt.mpr hl)
      · cases hS
  · exact ⟨fun i => .inr (.inr ⟨l, hl, .inr ⟨i, rfl⟩⟩), .inr (.inr ⟨l, hl, .inl rfl⟩)⟩

end VJ
