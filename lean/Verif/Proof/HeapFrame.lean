import Verif.Spec.Heap

/-!
# What decoding can change in memory, however its objects are shared
-/

namespace VJ

theorem OutAll.ok {α : Type} {P : α → Prop} {a : α} (h : P a) : OutAll P (.ok a) := by
  intro b e; cases e; exact h

theorem OutAll.pure {α : Type} {P : α → Prop} {a : α} (h : P a) : OutAll P (Pure.pure a : Out α) := OutAll.ok h

theorem OutAll.unsupp {α : Type} {P : α → Prop} : OutAll P (.unsupp : Out α) := by intro b e; cases e
theorem OutAll.panic {α : Type} {P : α → Prop} : OutAll P (.panic : Out α) := by intro b e; cases e
theorem OutAll.loop {α : Type} {P : α → Prop} : OutAll P (.loop : Out α) := by intro b e; cases e

theorem OutAll.bind {α β : Type} {Q : α → Prop} {P : β → Prop} {o : Out α} {f : α → Out β} (ho : OutAll Q o)
    (hf : ∀ a, Q a → OutAll P (f a)) : OutAll P (o >>= f) := by
  cases o with
  | ok a => exact hf a (ho a rfl)
  | panic => exact OutAll.panic
  | loop => exact OutAll.loop
  | unsupp => exact OutAll.unsupp

section
variable {S : MemPart → Prop}

theorem refsInL_iff : ∀ {vs : List HVal}, RefsInL S vs ↔ ∀ v ∈ vs, RefsIn S v
  | [] => by simp [RefsInL]
  | v :: vs => by simp [RefsInL, refsInL_iff (vs := vs)]

theorem RefsInL.get {vs : List HVal} {i : Nat} {v : HVal} (h : RefsInL S vs) (hi : vs[i]? = some v) : RefsIn S v :=
  refsInL_iff.mp h v (List.mem_of_getElem? hi)

theorem RefsInL.set {vs : List HVal} {i : Nat} {v : HVal} (h : RefsInL S vs) (hv : RefsIn S v) : RefsInL S (vs.set i v) := by
  rw [refsInL_iff] at h ⊢
  intro w hw
  rcases List.mem_or_eq_of_mem_set hw with hw | rfl
  · exact h w hw
  · exact hv

theorem RefsInL.append {vs ws : List HVal} (h : RefsInL S vs) (h' : RefsInL S ws) : RefsInL S (vs ++ ws) := by
  rw [refsInL_iff] at h h' ⊢
  intro w hw
  rcases List.mem_append.mp hw with hw | hw
  · exact h w hw
  · exact h' w hw

theorem RefsInL.replicate {v : HVal} (n : Nat) (h : RefsIn S v) : RefsInL S (List.replicate n v) := by
  rw [refsInL_iff]
  intro w hw
  rw [(List.mem_replicate.mp hw).2]
  exact h

theorem RefsIn.at : ∀ {p : List Nat} {v w : HVal}, RefsIn S v → HVal.at p v = some w → RefsIn S w
  | [], v, w, h, e => by simp only [HVal.at, Option.some.injEq] at e; exact e ▸ h
  | i :: p, .struct fs, w, h, e => by
    simp only [HVal.at, Option.bind_eq_some_iff] at e
    obtain ⟨u, hu, e⟩ := e
    simp only [RefsIn] at h
    exact RefsIn.at (h.get hu) e
  | i :: p, .arr fs, w, h, e => by
    simp only [HVal.at, Option.bind_eq_some_iff] at e
    obtain ⟨u, hu, e⟩ := e
    simp only [RefsIn] at h
    exact RefsIn.at (h.get hu) e
  | _ :: _, .int _, _, _, e | _ :: _, .float _, _, _, e | _ :: _, .bool _, _, _, e | _ :: _, .str _, _, _, e
  | _ :: _, .time _, _, _, e | _ :: _, .uuid _, _, _, e | _ :: _, .nil, _, _, e | _ :: _, .ptr _, _, _, e
  | _ :: _, .slice .., _, _, e | _ :: _, .map _, _, _, e | _ :: _, .bytes .., _, _, e | _ :: _, .barr _, _, _, e => by
    simp [HVal.at] at e

theorem RefsIn.put : ∀ {p : List Nat} {v w : HVal}, RefsIn S v → RefsIn S w → RefsIn S (v.put p w)
  | [], v, w, _, h => by simpa only [HVal.put] using h
  | i :: p, .struct fs, w, hv, hw => by
    simp only [HVal.put]
    cases hi : fs[i]? with
    | none => exact hv
    | some u =>
      simp only [RefsIn] at hv ⊢
      exact hv.set (RefsIn.put (hv.get hi) hw)
  | i :: p, .arr fs, w, hv, hw => by
    simp only [HVal.put]
    cases hi : fs[i]? with
    | none => exact hv
    | some u =>
      simp only [RefsIn] at hv ⊢
      exact hv.set (RefsIn.put (hv.get hi) hw)
  | _ :: _, .int _, _, h, _ | _ :: _, .float _, _, h, _ | _ :: _, .bool _, _, h, _ | _ :: _, .str _, _, h, _
  | _ :: _, .time _, _, h, _ | _ :: _, .uuid _, _, h, _ | _ :: _, .nil, _, h, _ | _ :: _, .ptr _, _, h, _
  | _ :: _, .slice .., _, h, _ | _ :: _, .map _, _, h, _ | _ :: _, .bytes .., _, h, _ | _ :: _, .barr _, _, h, _ => by
    simpa only [HVal.put] using h

theorem MemKept.refl (h : Heap) : MemKept S h h :=
  ⟨Nat.le_refl _, fun _ vs e => ⟨vs, e, rfl, fun _ _ => rfl⟩, fun _ kvs e => ⟨kvs, e, fun _ => rfl⟩⟩

theorem MemKept.trans {h h1 h2 : Heap} (a : MemKept S h h1) (b : MemKept S h1 h2) : MemKept S h h2 := by
  refine ⟨Nat.le_trans a.size b.size, fun l vs e => ?_, fun l kvs e => ?_⟩
  · obtain ⟨vs1, e1, n1, k1⟩ := a.cells l vs e
    obtain ⟨vs2, e2, n2, k2⟩ := b.cells l vs1 e1
    exact ⟨vs2, e2, n2.trans n1, fun i hi => (k2 i hi).trans (k1 i hi)⟩
  · obtain ⟨vs1, e1, k1⟩ := a.maps l kvs e
    obtain ⟨vs2, e2, k2⟩ := b.maps l vs1 e1
    exact ⟨vs2, e2, fun hi => (k2 hi).trans (k1 hi)⟩

theorem MemStep.refl {h : Heap} (hc : MemClosed S h) : MemStep S h h := ⟨MemKept.refl h, hc⟩

theorem MemStep.trans {h h1 h2 : Heap} (a : MemStep S h h1) (b : MemStep S h1 h2) : MemStep S h h2 := ⟨a.1.trans b.1, b.2⟩

theorem MemClosed.read {h : Heap} {p : Spot} {w : HVal} (hc : MemClosed S h) (hp : S (.cell p.loc p.idx)) (hr : h.read p = some w) :
    RefsIn S w := by
  unfold Heap.read at hr
  split at hr
  · next vs e =>
    simp only [Option.bind_eq_some_iff] at hr
    obtain ⟨u, hu, hw⟩ := hr
    exact (hc.cells _ _ _ _ e hu hp).at hw
  · simp at hr

/-- Replacing an object by one of the same kind. -/
theorem MemStep.set {h : Heap} {l : Loc} {o : Obj} (hc : MemClosed S h) (hw : ∀ i v vs, o = .cells vs → vs[i]? = some v → S (.cell l i) → RefsIn S v)
    (hcells : ∀ vs, h.objs[l]? = some (.cells vs) → ∃ vs', o = .cells vs' ∧ vs'.length = vs.length ∧ ∀ i, ¬ S (.cell l i) → vs'[i]? = vs[i]?)
    (hmaps : ∀ kvs, h.objs[l]? = some (.map kvs) → ∃ kvs', o = .map kvs' ∧ (¬ S (.map l) → kvs' = kvs)) :
    MemStep S h ⟨h.objs.set l o⟩ := by
  have hset : ∀ l', (h.objs.set l o)[l']? = if l = l' then (if l < h.objs.length then some o else none) else h.objs[l']? :=
    fun l' => by rw [List.getElem?_set]
  refine ⟨⟨by simp [Heap.size], fun l' vs e => ?_, fun l' kvs e => ?_⟩, fun l' i vs v e hi hS => ?_, fun l' hl => ?_⟩
  · by_cases hl : l = l'
    · subst hl
      have hlt := (List.getElem?_eq_some_iff.mp e).1
      obtain ⟨vs', rfl, n, k⟩ := hcells vs e
      exact ⟨vs', by rw [hset, if_pos rfl, if_pos hlt], n, k⟩
    · exact ⟨vs, by rw [hset, if_neg hl, e], rfl, fun _ _ => rfl⟩
  · by_cases hl : l = l'
    · subst hl
      have hlt := (List.getElem?_eq_some_iff.mp e).1
      obtain ⟨vs', rfl, k⟩ := hmaps kvs e
      exact ⟨vs', by rw [hset, if_pos rfl, if_pos hlt], k⟩
    · exact ⟨kvs, by rw [hset, if_neg hl, e], fun _ => rfl⟩
  · rw [hset] at e
    by_cases hl : l = l'
    · subst hl
      rw [if_pos rfl] at e
      split at e
      · exact hw i v vs (Option.some.inj e) hi hS
      · cases e
    · rw [if_neg hl] at e
      exact hc.cells _ _ _ _ e hi hS
  · exact hc.fresh l' (by simpa [Heap.size] using hl)

theorem MemStep.write {h : Heap} {p : Spot} {w : HVal} (hc : MemClosed S h) (hp : S (.cell p.loc p.idx)) (hw : RefsIn S w) :
    MemStep S h (h.write p w) := by
  unfold Heap.write
  split
  · next vs e =>
    split
    · next v hv =>
      refine MemStep.set hc ?_ ?_ ?_
      · intro i u vs' e' hi hS
        cases e'
        rw [List.getElem?_set] at hi
        split at hi
        · next hi' =>
          split at hi
          · cases hi
            exact (hc.cells _ _ _ _ e hv hp).put hw
          · cases hi
        · exact hc.cells _ _ _ _ e hi hS
      · intro vs' e'
        rw [e] at e'
        cases e'
        refine ⟨_, rfl, by simp, fun i hi => ?_⟩
        rw [List.getElem?_set_ne]
        rintro rfl
        exact hi hp
      · intro kvs e'
        rw [e] at e'
        cases e'
    · exact MemStep.refl hc
  · exact MemStep.refl hc

theorem MemStep.mapPut {h : Heap} {l : Loc} {key : Str} {v : HVal} (hc : MemClosed S h) (hl : S (.map l)) :
    OutAll (MemStep S h) (h.mapPut l key v) := by
  unfold Heap.mapPut
  split
  · next kvs e =>
    refine OutAll.ok (MemStep.set hc ?_ ?_ ?_)
    · intro i u vs' e'; cases e'
    · intro vs' e'; rw [e] at e'; cases e'
    · intro kvs' e'
      exact ⟨_, rfl, fun hi => absurd hl hi⟩
  · exact OutAll.unsupp

theorem MemStep.alloc {h : Heap} {o : Obj} (hc : MemClosed S h) (hw : ∀ vs, o = .cells vs → RefsInL S vs) :
    MemStep S h (h.alloc o) := by
  have hget : ∀ l x, h.objs[l]? = some x → (h.alloc o).objs[l]? = some x := fun l x e => by
    have hlt := (List.getElem?_eq_some_iff.mp e).1
    simp only [Heap.alloc]
    rw [List.getElem?_append_left hlt, e]
  refine ⟨⟨by simp [Heap.size, Heap.alloc], fun l vs e => ⟨vs, hget _ _ e, rfl, fun _ _ => rfl⟩,
    fun l kvs e => ⟨kvs, hget _ _ e, fun _ => rfl⟩⟩, fun l i vs v e hi hS => ?_, fun l hl => ?_⟩
  · simp only [Heap.alloc] at e
    by_cases hlt : l < h.objs.length
    · rw [List.getElem?_append_left hlt] at e
      exact hc.cells _ _ _ _ e hi hS
    · rw [List.getElem?_append_right (Nat.not_lt.mp hlt)] at e
      have : o = .cells vs := by
        have := List.mem_of_getElem? e
        simp only [List.mem_singleton] at this
        exact this.symm
      exact (hw vs this).get hi
  · refine hc.fresh l ?_
    have : h.size + 1 ≤ l := by simpa [Heap.size, Heap.alloc] using hl
    exact Nat.le_of_succ_le this

theorem Prim.hzero_within (p : Prim) : RefsIn S p.hzero := by cases p <;> simp [Prim.hzero, RefsIn]

theorem Prim.hconv_within [Ext] (p : Prim) {v : HVal} (h : RefsIn S v) : RefsIn S (p.hconv v) := by
  unfold Prim.hconv
  split
  · simp [RefsIn]
  · simp [RefsIn]
  · exact h

theorem hzeroT_within {M : Nat → HMethods} (hM : ∀ n, MKeep S (M n)) : ∀ t, OutAll (RefsIn S) (hzeroT M t)
  | .prim p => OutAll.ok p.hzero_within
  | .named n | .sel n => (hM n).zero
  | .time | .uuid | .star _ | .slice _ | .map _ => OutAll.ok (by simp [RefsIn])
  | .structT => OutAll.unsupp
  | .array n t => by
    unfold hzeroT
    split
    · exact OutAll.ok (by simp [RefsIn])
    · refine OutAll.bind (hzeroT_within hM t) fun z hz => OutAll.pure ?_
      simp only [RefsIn]
      exact RefsInL.replicate n hz

theorem hconvT_within [Ext] {M : Nat → HMethods} (hM : ∀ n, MKeep S (M n)) (t : TExpr) {v : HVal} (h : RefsIn S v) :
    OutAll (RefsIn S) (hconvT M t v) := by
  cases t with
  | prim p => exact OutAll.ok (p.hconv_within h)
  | named n => exact (hM n).conv v h
  | sel n => exact (hM n).conv v h
  | _ => exact OutAll.ok h

theorem hfillT_step {M : Nat → HMethods} (hM : ∀ n, MKeep S (M n)) (t : TExpr) (v : JV) {p : Spot} {h : Heap} (hc : MemClosed S h)
    (hp : S (.cell p.loc p.idx)) : OutAll (fun r => MemStep S h r.2) (hfillT M t v p h) := by
  cases t with
  | named n => exact (hM n).fill v p h hc hp
  | sel n => exact (hM n).fill v p h hc hp
  | _ => exact OutAll.unsupp

/-- The result of a template, if there is one, lies in `S`. -/
def TVIn (S : MemPart → Prop) (h : Heap) (r : HTV × Heap) : Prop :=
  MemStep S h r.2 ∧ ∀ w, r.1 = .done (.ok w) → RefsIn S w

theorem TVIn.ret {h h' : Heap} {e : Err} (st : MemStep S h h') : TVIn S h (.ret e, h') := ⟨st, by intro w e; cases e⟩
theorem TVIn.fail {h h' : Heap} {e : Err} (st : MemStep S h h') : TVIn S h (.done (.error e), h') := ⟨st, by intro w e; cases e⟩
theorem TVIn.done {h h' : Heap} {w : HVal} (st : MemStep S h h') (hw : RefsIn S w) : TVIn S h (.done (.ok w), h') :=
  ⟨st, by intro w e; cases e; exact hw⟩

theorem hsliceLoop_step {f : Nat → JV → Spot → Heap → Out (HCell × Heap)} {pl : Nat → Spot} {cap : Nat}
    (hf : ∀ i a p h, MemClosed S h → S (.cell p.loc p.idx) → OutAll (fun r => MemStep S h r.2) (f i a p h))
    (hpl : ∀ i, i < cap → S (.cell (pl i).loc (pl i).idx)) :
    ∀ (l : List JV) (i : Nat) (h : Heap), MemClosed S h → OutAll (fun r => MemStep S h r.2.2) (hsliceLoop f pl cap i l h)
  | [], i, h, hc => OutAll.ok (MemStep.refl hc)
  | a :: as, i, h, hc => by
    unfold hsliceLoop
    split
    · next hi =>
      refine OutAll.bind (hf i a (pl i) h hc (hpl i hi)) ?_
      rintro ⟨c, h1⟩ st
      dsimp only at st ⊢
      cases c with
      | store =>
        intro r hr
        exact st.trans (hsliceLoop_step hf hpl as (i + 1) h1 st.2 r hr)
      | ret e => exact OutAll.pure st
      | brk e => exact OutAll.pure st
    · exact OutAll.panic

theorem storeRef_step {h : Heap} {p : Spot} {w : HVal} (hc : MemClosed S h) (hp : S (.cell p.loc p.idx)) (hw : RefsIn S w) (l : Loc) :
    MemStep S h ((h.alloc (.cells [w])).write p (.ptr l)) := by
  have st := MemStep.alloc (o := .cells [w]) hc (by intro vs e; cases e; simp [RefsInL, hw])
  exact st.trans (MemStep.write st.2 hp (by simp [RefsIn]))

theorem hstoreElem_step [Ext] {M : Nat → HMethods} (hM : ∀ n, MKeep S (M n)) (st : ElemStore) {val : HVal} {p : Spot} {h : Heap}
    (hc : MemClosed S h) (hp : S (.cell p.loc p.idx)) (hv : RefsIn S val) : OutAll (MemStep S h) (hstoreElem M st val p h) := by
  cases st with
  | ref t => exact OutAll.bind (hconvT_within hM t hv) fun w hw => OutAll.pure (storeRef_step hc hp hw _)
  | val t => exact OutAll.bind (hconvT_within hM t hv) fun w hw => OutAll.pure (MemStep.write hc hp hw)
  | filled => exact OutAll.ok (MemStep.refl hc)

theorem helemRound_step [Ext] {M : Nat → HMethods} (hM : ∀ n, MKeep S (M n)) {nullable brk : Bool} {st : ElemStore}
    {x : Nat → JV → Spot → Heap → Out (HTV × Heap)}
    (hx : ∀ i a p h, MemClosed S h → S (.cell p.loc p.idx) → OutAll (TVIn S h) (x i a p h)) (i : Nat) (a : JV) (p : Spot) (h : Heap)
    (hc : MemClosed S h) (hp : S (.cell p.loc p.idx)) : OutAll (fun r => MemStep S h r.2) (helemRound M nullable brk st x i a p h) := by
  unfold helemRound
  split
  · exact OutAll.ok (MemStep.write hc hp (by simp [RefsIn]))
  · refine OutAll.bind (hx i a p h hc hp) ?_
    rintro ⟨t, h1⟩ ⟨s1, hw⟩
    dsimp only at s1 hw ⊢
    split
    · exact OutAll.pure s1
    · split
      · exact OutAll.pure s1
      · exact OutAll.unsupp
    · next val =>
      exact OutAll.bind (hstoreElem_step hM st s1.2 hp (hw _ rfl)) fun h2 s2 => OutAll.pure (s1.trans s2)

theorem hmapLoop_step [Ext] {M : Nat → HMethods} (hM : ∀ n, MKeep S (M n)) {star : Bool} {val : TExpr}
    {x : JV → Heap → Out (HTV × Heap)} (hx : ∀ v h, MemClosed S h → OutAll (TVIn S h) (x v h)) {l : Loc} (hl : S (.map l)) :
    ∀ (kvs : List (Str × JV)) (h : Heap), MemClosed S h → OutAll (fun r => MemStep S h r.2) (hmapLoop M star val x l kvs h)
  | [], h, hc => OutAll.ok (MemStep.refl hc)
  | (key, v) :: rest, h, hc => by
    have ih : ∀ h1, MemStep S h h1 → OutAll (fun r => MemStep S h r.2) (hmapLoop M star val x l rest h1) :=
      fun h1 st r hr => st.trans (hmapLoop_step hM hx hl rest h1 st.2 r hr)
    unfold hmapLoop
    split
    · exact OutAll.bind (MemStep.mapPut hc hl) fun h1 st => ih h1 st
    · refine OutAll.bind (hx v h hc) ?_
      rintro ⟨t, h1⟩ ⟨s1, hw⟩
      dsimp only at s1 hw ⊢
      split
      · exact OutAll.unsupp
      · exact OutAll.pure s1
      · next w =>
        refine OutAll.bind (hconvT_within hM val (hw _ rfl)) fun w' hw' => ?_
        split
        · have s2 := MemStep.alloc (o := .cells [w']) s1.2 (by intro vs e; cases e; simp [RefsInL, hw'])
          exact OutAll.bind (MemStep.mapPut s2.2 hl) fun h2 s3 => ih h2 ((s1.trans s2).trans s3)
        · exact OutAll.bind (MemStep.mapPut s1.2 hl) fun h2 s3 => ih h2 (s1.trans s3)

theorem RefsInL.bytes : ∀ b : List UInt8, RefsInL S (byteCells b)
  | [] => by simp [byteCells, RefsInL]
  | b :: bs => by
    have := RefsInL.bytes bs
    simp only [byteCells, List.map_cons, RefsInL, RefsIn] at this ⊢
    exact ⟨trivial, this⟩

theorem newBytes_step (b : List UInt8) {h : Heap} (hc : MemClosed S h) :
    RefsIn S (newBytes b h).1 ∧ MemStep S h (newBytes b h).2 :=
  ⟨by simp [newBytes, RefsIn], MemStep.alloc hc (by intro vs e; cases e; exact RefsInL.bytes b)⟩

theorem hbytesFill_within (len : Option Nat) (v : JV) {d : HVal} {h : Heap} (hc : MemClosed S h) (hd : RefsIn S d) :
    OutAll (fun r => RefsIn S r.2.1 ∧ MemStep S h r.2.2) (hbytesFill len v d h) := by
  have same : ∀ b, RefsIn S (.barr b) ∧ MemStep S h h := fun b => ⟨by simp [RefsIn], MemStep.refl hc⟩
  unfold hbytesFill
  split
  · exact OutAll.ok ⟨hd, MemStep.refl hc⟩
  · split
    · exact OutAll.ok ⟨hd, MemStep.refl hc⟩
    · dsimp only
      split
      · split
        · exact OutAll.ok (newBytes_step _ hc)
        · exact OutAll.ok (newBytes_step _ hc)
      · split
        · split
          · exact OutAll.panic
          · split
            · exact OutAll.ok (same _)
            · split
              · exact OutAll.ok (same _)
              · exact OutAll.ok (same _)
        · exact OutAll.unsupp

theorem hbytesVar_within (len : Option Nat) : RefsIn S (hbytesVar len) := by cases len <;> simp [hbytesVar, RefsIn]

theorem hsliceCells_step (l : Nat) {z : HVal} {h : Heap} {fld : HVal} (hc : MemClosed S h) (hz : RefsIn S z) (hf : RefsIn S fld) :
    OutAll (fun r => MemStep S h r.2 ∧ ∀ i, r.1.2.1 ≤ i → i < r.1.2.1 + r.1.2.2 → S (.cell r.1.1 i)) (hsliceCells l z h fld) := by
  have hn : MemStep S h (h.alloc (.cells (List.replicate l z))) ∧ ∀ i, 0 ≤ i → i < 0 + l → S (.cell h.size i) :=
    ⟨MemStep.alloc hc (by intro vs e; cases e; exact RefsInL.replicate l hz), fun i _ _ => (hc.fresh _ (Nat.le_refl _)).1 i⟩
  unfold hsliceCells
  split
  · exact OutAll.ok hn
  · split
    · exact OutAll.ok hn
    · simp only [RefsIn] at hf
      exact OutAll.ok ⟨MemStep.refl hc, hf⟩
  · exact OutAll.unsupp

theorem hrunExtr_step [Ext] {M : Nat → HMethods} (hM : ∀ n, MKeep S (M n)) :
    ∀ (x : Extr) (i : Nat) (v : JV) (p : Spot) (h : Heap), MemClosed S h → S (.cell p.loc p.idx) → OutAll (TVIn S h) (hrunExtr M x i v p h) := by
  intro x
  induction x with
  | int =>
    intro i v p h hc hp
    unfold hrunExtr
    cases v.getInt with
    | ok i => exact OutAll.ok (TVIn.done (MemStep.refl hc) (by simp [RefsIn]))
    | error c => exact OutAll.ok (TVIn.fail (MemStep.refl hc))
  | uint =>
    intro i v p h hc hp
    unfold hrunExtr
    cases v.getUint with
    | ok i => exact OutAll.ok (TVIn.done (MemStep.refl hc) (by simp [RefsIn]))
    | error c => exact OutAll.ok (TVIn.fail (MemStep.refl hc))
  | float =>
    intro i v p h hc hp
    unfold hrunExtr
    cases v.getFloat with
    | ok i => exact OutAll.ok (TVIn.done (MemStep.refl hc) (by simp [RefsIn]))
    | error c => exact OutAll.ok (TVIn.fail (MemStep.refl hc))
  | bool =>
    intro i v p h hc hp
    unfold hrunExtr
    cases v.getBool with
    | ok i => exact OutAll.ok (TVIn.done (MemStep.refl hc) (by simp [RefsIn]))
    | error c => exact OutAll.ok (TVIn.fail (MemStep.refl hc))
  | strChecked path =>
    intro i v p h hc hp
    unfold hrunExtr
    cases v.getStr with
    | ok i => exact OutAll.ok (TVIn.done (MemStep.refl hc) (by simp [RefsIn]))
    | error c => exact OutAll.ok (TVIn.ret (MemStep.refl hc))
  | strUnchecked =>
    intro i v p h hc hp
    unfold hrunExtr
    cases v.getStr with
    | ok i => exact OutAll.ok (TVIn.done (MemStep.refl hc) (by simp [RefsIn]))
    | error c => exact OutAll.ok (TVIn.fail (MemStep.refl hc))
  | time json layout =>
    intro i v p h hc hp
    unfold hrunExtr
    cases v.getStr with
    | ok s =>
      dsimp only
      split
      · exact OutAll.ok (TVIn.done (MemStep.refl hc) (by simp [RefsIn]))
      · exact OutAll.ok (TVIn.fail (MemStep.refl hc))
    | error c => exact OutAll.ok (TVIn.ret (MemStep.refl hc))
  | uuid json =>
    intro i v p h hc hp
    unfold hrunExtr
    cases v.getStr with
    | ok s =>
      dsimp only
      split
      · exact OutAll.ok (TVIn.done (MemStep.refl hc) (by simp [RefsIn]))
      · exact OutAll.ok (TVIn.fail (MemStep.refl hc))
    | error c => exact OutAll.ok (TVIn.ret (MemStep.refl hc))
  | nestedFresh t =>
    intro i v p h hc hp
    unfold hrunExtr
    refine OutAll.bind (hzeroT_within hM t) fun z hz => ?_
    have s1 := MemStep.alloc (o := .cells [z]) hc (by intro vs e; cases e; simp [RefsInL, hz])
    have hf : S (.cell h.size 0) := (hc.fresh _ (Nat.le_refl _)).1 0
    refine OutAll.bind (hfillT_step hM t v (p := .cell h.size 0) s1.2 hf) ?_
    rintro ⟨e, h2⟩ s2
    dsimp only at s2 ⊢
    cases e with
    | some e => exact OutAll.pure (TVIn.fail (s1.trans s2))
    | none =>
      dsimp only
      split
      · next w hr => exact OutAll.pure (TVIn.done (s1.trans s2) (s2.2.read hf hr))
      · exact OutAll.unsupp
  | nestedInPlace t =>
    intro i v p h hc hp
    unfold hrunExtr
    refine OutAll.bind (hfillT_step hM t v hc hp) ?_
    rintro ⟨e, h2⟩ s2
    dsimp only at s2 ⊢
    cases e with
    | some e => exact OutAll.pure (TVIn.fail s2)
    | none =>
      dsimp only
      split
      · next w hr => exact OutAll.pure (TVIn.done s2 (s2.2.read hp hr))
      · exact OutAll.unsupp
  | bytes len =>
    intro i v p h hc hp
    unfold hrunExtr
    refine OutAll.bind (hbytesFill_within (S := S) len v hc (hbytesVar_within len)) ?_
    rintro ⟨e, d, h1⟩ ⟨hd, s⟩
    dsimp only at hd s ⊢
    cases e with
    | some e => exact OutAll.pure (TVIn.ret s)
    | none => exact OutAll.pure (TVIn.done s hd)
  | slice json elt nullable x brk st ih =>
    intro i v p h hc hp
    unfold hrunExtr
    cases v.getArr with
    | error c => exact OutAll.ok (TVIn.ret (MemStep.refl hc))
    | ok l =>
      dsimp only
      refine OutAll.bind (hzeroT_within hM elt) fun z hz => ?_
      split
      · exact OutAll.unsupp
      · next fld hr =>
        refine OutAll.bind (hsliceCells_step l.length hc hz (hc.read hp hr)) ?_
        rintro ⟨⟨a, off, cap⟩, h1⟩ ⟨s1, hin⟩
        dsimp only at s1 hin ⊢
        refine OutAll.bind (hsliceLoop_step (fun i a p h hc hp => helemRound_step hM ih i a p h hc hp)
          (fun i hi => hin (off + i) (Nat.le_add_right _ _) (Nat.add_lt_add_left hi _)) l 0 h1 s1.2) ?_
        rintro ⟨stop, n, h2⟩ s2
        dsimp only at s2 ⊢
        have hw : RefsIn S (.slice a off n cap) := by simp only [RefsIn]; exact hin
        cases stop with
        | fin => exact OutAll.pure (TVIn.done (s1.trans s2) hw)
        | ret e => exact OutAll.pure (TVIn.ret (s1.trans s2))
        | brk e =>
          dsimp only
          split
          · exact OutAll.pure (TVIn.done (s1.trans s2) hw)
          · exact OutAll.pure (TVIn.fail (s1.trans s2))
  | array json len elt x brk st ih =>
    intro i v p h hc hp
    unfold hrunExtr
    cases v.getArr with
    | error c => exact OutAll.ok (TVIn.ret (MemStep.refl hc))
    | ok l =>
      dsimp only
      split
      · exact OutAll.ok (TVIn.ret (MemStep.refl hc))
      · refine OutAll.bind (hzeroT_within hM elt) fun z hz => ?_
        have hf : ∀ i, S (.cell h.size i) := (hc.fresh _ (Nat.le_refl _)).1
        have s1 := MemStep.alloc (o := .cells (List.replicate len z)) hc (by intro vs e; cases e; exact RefsInL.replicate len hz)
        refine OutAll.bind (hsliceLoop_step (fun i a p h hc hp => helemRound_step hM ih i a p h hc hp)
          (fun i hi => hf i) l 0 _ s1.2) ?_
        rintro ⟨stop, n, h2⟩ s2
        dsimp only at s2 ⊢
        refine OutAll.bind (Q := RefsIn S) ?_ fun r hr => ?_
        · split
          · next vs e =>
            refine OutAll.ok ?_
            simp only [RefsIn]
            rw [refsInL_iff]
            intro w hw
            obtain ⟨j, hj⟩ := List.mem_iff_getElem?.mp hw
            exact s2.2.cells _ _ _ _ e hj (hf j)
          · exact OutAll.unsupp
        · cases stop with
          | fin => exact OutAll.pure (TVIn.done (s1.trans s2) hr)
          | ret e => exact OutAll.pure (TVIn.ret (s1.trans s2))
          | brk e =>
            dsimp only
            split
            · exact OutAll.pure (TVIn.done (s1.trans s2) hr)
            · exact OutAll.pure (TVIn.fail (s1.trans s2))
  | map json star val x ih =>
    intro i v p h hc hp
    unfold hrunExtr
    cases v.getObj with
    | error c => exact OutAll.ok (TVIn.ret (MemStep.refl hc))
    | ok kvs =>
      dsimp only
      refine OutAll.bind (Q := fun r => MemStep S h r.2 ∧ S (.map r.1)) ?_ ?_
      · split
        · exact OutAll.ok ⟨MemStep.alloc hc (by intro vs e; cases e), (hc.fresh _ (Nat.le_refl _)).2⟩
        · next l hr =>
          have := hc.read hp hr
          simp only [RefsIn] at this
          exact OutAll.ok ⟨MemStep.refl hc, this⟩
        · exact OutAll.unsupp
      · rintro ⟨l, h1⟩ ⟨s1, hl⟩
        dsimp only at s1 hl ⊢
        refine OutAll.bind (hmapLoop_step hM ?_ hl kvs h1 s1.2) ?_
        · intro v h hc
          have s := MemStep.alloc (o := .cells [HVal.nil]) hc (by intro vs e; cases e; simp [RefsInL, RefsIn])
          intro r hr
          obtain ⟨a, b⟩ := ih 0 v (.cell h.size 0) _ s.2 ((hc.fresh _ (Nat.le_refl _)).1 0) r hr
          exact ⟨s.trans a, b⟩
        · rintro ⟨e, h2⟩ s2
          dsimp only at s2 ⊢
          cases e with
          | none => exact OutAll.pure (TVIn.done (s1.trans s2) (by simpa only [RefsIn] using hl))
          | some e => exact OutAll.pure (TVIn.fail (s1.trans s2))

/-- A template that fills a variable of its own. -/
theorem hrunExtr_var [Ext] {M : Nat → HMethods} (hM : ∀ n, MKeep S (M n)) (x : Extr) (i : Nat) (v : JV) {h : Heap} (hc : MemClosed S h) :
    OutAll (TVIn S h) (hrunExtr M x i v (.cell h.size 0) (h.alloc (.cells [.nil]))) := by
  have s := MemStep.alloc (o := .cells [HVal.nil]) hc (by intro vs e; cases e; simp [RefsInL, RefsIn])
  intro r hr
  obtain ⟨a, b⟩ := hrunExtr_step hM x i v (.cell h.size 0) _ s.2 ((hc.fresh _ (Nat.le_refl _)).1 0) r hr
  exact ⟨s.trans a, b⟩

theorem hstoreField_step [Ext] {M : Nat → HMethods} (hM : ∀ n, MKeep S (M n)) (st : Store) {val : HVal} {p : Spot} {h : Heap}
    (hc : MemClosed S h) (hp : S (.cell p.loc p.idx)) (hv : RefsIn S val) : OutAll (MemStep S h) (hstoreField M st val p h) := by
  cases st with
  | filled => exact OutAll.ok (MemStep.refl hc)
  | val t => exact OutAll.bind (hconvT_within hM t hv) fun w hw => OutAll.pure (MemStep.write hc hp hw)
  | ref t => exact OutAll.bind (hconvT_within hM t hv) fun w hw => OutAll.pure (storeRef_step hc hp hw _)
  | named t => exact OutAll.bind (hconvT_within hM t hv) fun w hw => OutAll.pure (storeRef_step hc hp hw _)
  | refNamed t =>
    refine OutAll.bind (hconvT_within hM t hv) fun w hw => OutAll.pure ?_
    have s := MemStep.alloc (o := .cells [w]) hc (by intro vs e; cases e; simp [RefsInL, hw])
    exact s.trans (storeRef_step s.2 hp (by simp [RefsIn]) _)

mutual
theorem layOut_step : ∀ (g : GoVal) (h : Heap), MemClosed S h → MemStep S h (layOut g h).2 ∧ RefsIn S (layOut g h).1
  | .int _, h, hc | .float _, h, hc | .bool _, h, hc | .str _, h, hc | .time _, h, hc | .uuid _, h, hc | .nil, h, hc
  | .barr _, h, hc => ⟨MemStep.refl hc, by simp [layOut, RefsIn]⟩
  | .bytes b, h, hc => ⟨(newBytes_step b hc).2, (newBytes_step b hc).1⟩
  | .ptr g, h, hc => by
    obtain ⟨s, w⟩ := layOut_step g h hc
    simp only [layOut]
    exact ⟨s.trans (MemStep.alloc s.2 (by intro vs e; cases e; simp [RefsInL, w])), by simp [RefsIn]⟩
  | .slice es sp, h, hc => by
    obtain ⟨s, w⟩ := layOutL_step es h hc
    obtain ⟨s', w'⟩ := layOutL_step sp _ s.2
    simp only [layOut]
    refine ⟨(s.trans s').trans (MemStep.alloc s'.2 (by intro vs e; cases e; exact w.append w')), ?_⟩
    simp only [RefsIn]
    exact fun i _ _ => (s'.2.fresh _ (Nat.le_refl _)).1 i
  | .arr es, h, hc => by
    obtain ⟨s, w⟩ := layOutL_step es h hc
    simp only [layOut, RefsIn]
    exact ⟨s, w⟩
  | .struct es, h, hc => by
    obtain ⟨s, w⟩ := layOutL_step es h hc
    simp only [layOut, RefsIn]
    exact ⟨s, w⟩
  | .map kvs, h, hc => by
    have s := layOutKV_step kvs h hc
    simp only [layOut]
    refine ⟨s.trans (MemStep.alloc s.2 (by intro vs e; cases e)), ?_⟩
    simp only [RefsIn]
    exact (s.2.fresh _ (Nat.le_refl _)).2
theorem layOutL_step : ∀ (gs : List GoVal) (h : Heap), MemClosed S h → MemStep S h (layOutL gs h).2 ∧ RefsInL S (layOutL gs h).1
  | [], h, hc => ⟨MemStep.refl hc, by simp [layOutL, RefsInL]⟩
  | g :: gs, h, hc => by
    obtain ⟨s, w⟩ := layOut_step g h hc
    obtain ⟨s', w'⟩ := layOutL_step gs _ s.2
    simp only [layOutL, RefsInL]
    exact ⟨s.trans s', w, w'⟩
theorem layOutKV_step : ∀ (gs : List (Str × GoVal)) (h : Heap), MemClosed S h → MemStep S h (layOutKV gs h).2
  | [], h, hc => MemStep.refl hc
  | (k, g) :: gs, h, hc => by
    obtain ⟨s, w⟩ := layOut_step g h hc
    have s' := layOutKV_step gs _ s.2
    simp only [layOutKV]
    exact s.trans s'
end

theorem hrunField_step [Ext] {M : Nat → HMethods} (hM : ∀ n, MKeep S (M n)) (f : FieldFill) (v : JV) {p : Spot} {h : Heap}
    (hc : MemClosed S h) (hp : S (.cell p.loc p.idx)) : OutAll (fun r => MemStep S h r.2) (hrunField M f v p h) := by
  unfold hrunField
  dsimp only
  generalize (if f.json = [] then some v else v.get f.json) = x
  split
  · next w _ =>
    refine OutAll.bind (hrunExtr_step hM f.x 0 w p h hc hp) ?_
    rintro ⟨t, h1⟩ ⟨s1, hw⟩
    dsimp only at s1 hw ⊢
    split
    · exact OutAll.pure s1
    · split
      · exact OutAll.pure s1
      · exact OutAll.unsupp
    · next val =>
      split
      · exact OutAll.pure s1
      · exact OutAll.bind (hstoreField_step hM f.store s1.2 hp (hw _ rfl)) fun h2 s2 => OutAll.pure (s1.trans s2)
  · split
    · exact OutAll.ok (MemStep.refl hc)
    · exact OutAll.ok (MemStep.refl hc)
    · next d oa _ =>
      split
      · exact OutAll.ok (MemStep.refl hc)
      · obtain ⟨s, w⟩ := layOut_step d h hc
        exact OutAll.ok (s.trans (MemStep.write s.2 hp w))

theorem hrunFields_step [Ext] {M : Nat → HMethods} (hM : ∀ n, MKeep S (M n)) (v : JV) {p : Spot} (hp : S (.cell p.loc p.idx)) :
    ∀ (fs : List (Option FieldFill)) (n i : Nat) (h : Heap), MemClosed S h →
      OutAll (fun r => MemStep S h r.2) (hrunFields M v p n i fs h)
  | [], 0, i, h, hc => OutAll.ok (MemStep.refl hc)
  | [], n + 1, i, h, hc => by unfold hrunFields; exact OutAll.unsupp
  | f :: fs, 0, i, h, hc => by unfold hrunFields; exact OutAll.unsupp
  | none :: fs, n + 1, i, h, hc => hrunFields_step hM v hp fs n (i + 1) h hc
  | some f :: fs, n + 1, i, h, hc => by
    unfold hrunFields
    refine OutAll.bind (hrunField_step hM f v (p := p.part i) hc hp) ?_
    rintro ⟨e, h1⟩ s1
    dsimp only at s1 ⊢
    cases e with
    | some e => exact OutAll.pure s1
    | none => exact fun r hr => s1.trans (hrunFields_step hM v hp fs n (i + 1) h1 s1.2 r hr)

theorem hlistRound_step [Ext] {M : Nat → HMethods} (hM : ∀ n, MKeep S (M n)) (elt : TExpr) (x : Extr) (i : Nat) (a : JV) (p : Spot)
    (h : Heap) (hc : MemClosed S h) (hp : S (.cell p.loc p.idx)) : OutAll (fun r => MemStep S h r.2) (hlistRound M elt x i a p h) := by
  unfold hlistRound
  refine OutAll.bind (hrunExtr_var hM x i a hc) ?_
  rintro ⟨t, h1⟩ ⟨s1, hw⟩
  dsimp only at s1 hw ⊢
  split
  · exact OutAll.pure s1
  · exact OutAll.pure s1
  · next val =>
    exact OutAll.bind (hconvT_within hM elt (hw _ rfl)) fun w' hw' => OutAll.pure (s1.trans (MemStep.write s1.2 hp hw'))

theorem hrunFill_step [Ext] {M : Nat → HMethods} (hM : ∀ n, MKeep S (M n)) (ir : FillIR) (v : JV) {p : Spot} {h : Heap}
    (hc : MemClosed S h) (hp : S (.cell p.loc p.idx)) : OutAll (fun r => MemStep S h r.2) (hrunFill M ir v p h) := by
  obtain ⟨hf, hfm⟩ := hc.fresh _ (Nat.le_refl _)
  cases ir with
  | struct names strict fields =>
    simp only [hrunFill]
    split
    · split
      · exact OutAll.ok (MemStep.refl hc)
      · exact hrunFields_step hM v hp _ _ _ h hc
    · exact OutAll.unsupp
  | map star val x =>
    simp only [hrunFill]
    split
    · exact OutAll.ok (MemStep.refl hc)
    · split
      · exact OutAll.ok (MemStep.refl hc)
      · next kvs _ =>
        have s1 := MemStep.alloc (o := .map []) hc (by intro vs e; cases e)
        have s2 := s1.trans (MemStep.write (w := .map h.size) s1.2 hp (by simpa only [RefsIn] using hfm))
        exact fun r hr => s2.trans (hmapLoop_step hM (fun v h hc => hrunExtr_var hM x 0 v hc) hfm kvs _ s2.2 r hr)
  | list len elt x =>
    cases len with
    | none =>
      simp only [hrunFill]
      split
      · exact OutAll.ok (MemStep.refl hc)
      · split
        · exact OutAll.ok (MemStep.refl hc)
        · next l _ =>
          refine OutAll.bind (hzeroT_within hM elt) fun z hz => ?_
          have s1 := MemStep.alloc (o := .cells (List.replicate l.length z)) hc (by intro vs e; cases e; exact RefsInL.replicate _ hz)
          have s2 := s1.trans (MemStep.write (w := .slice h.size 0 l.length l.length) s1.2 hp
            (by simp only [RefsIn]; exact fun i _ _ => hf i))
          refine OutAll.bind (hsliceLoop_step (fun i a p h hc hp => hlistRound_step hM elt x i a p h hc hp)
            (fun i _ => hf i) l 0 _ s2.2) ?_
          rintro ⟨stop, n, h2⟩ s3
          exact OutAll.pure (s2.trans s3)
    | some n =>
      simp only [hrunFill]
      split
      · exact OutAll.ok (MemStep.refl hc)
      · split
        · exact OutAll.ok (MemStep.refl hc)
        · next l _ =>
          split
          · exact OutAll.ok (MemStep.refl hc)
          · split
            · refine OutAll.bind (hsliceLoop_step (pl := p.part) (fun i a p h hc hp => hlistRound_step hM elt x i a p h hc hp)
                (fun i _ => hp) l 0 _ hc) ?_
              rintro ⟨stop, n, h2⟩ s3
              exact OutAll.pure s3
            · exact OutAll.unsupp
  | bytes len =>
    simp only [hrunFill]
    split
    · exact OutAll.unsupp
    · next d hr =>
      exact OutAll.bind (hbytesFill_within len v hc (hc.read hp hr)) fun r hr => OutAll.pure (hr.2.trans (MemStep.write hr.2.2 hp hr.1))
  | transit t x =>
    simp only [hrunFill]
    refine OutAll.bind (hrunExtr_step hM x 0 v p h hc hp) ?_
    rintro ⟨t', h1⟩ ⟨s1, hw⟩
    dsimp only at s1 hw ⊢
    split
    · exact OutAll.pure s1
    · exact OutAll.pure s1
    · next val =>
      exact OutAll.bind (hconvT_within hM t (hw _ rfl)) fun w' hw' => OutAll.pure (s1.trans (MemStep.write s1.2 hp hw'))

theorem hzeroFields_within {M : Nat → HMethods} (hM : ∀ n, MKeep S (M n)) :
    ∀ fds : List FieldDecl, OutAll (RefsInL S) (hzeroFields M fds)
  | [] => OutAll.ok (by simp [RefsInL])
  | fd :: fds => by
    unfold hzeroFields
    refine OutAll.bind (hzeroT_within hM fd.typ) fun z hz => ?_
    exact OutAll.bind (hzeroFields_within hM fds) fun zs hzs => OutAll.pure ⟨hz, hzs⟩

/-- The methods of every type of a package stay inside `S`. -/
theorem hmethods_keep [Ext] {Γ : Env} {X : Nat → HMethods} (hX : ∀ n, MKeep S (X n)) :
    ∀ k n, MKeep S (Γ.hmethods X k n) := by
  intro k
  induction k with
  | zero => intro n; exact ⟨OutAll.loop, fun _ _ => OutAll.loop, fun _ _ _ _ _ => OutAll.loop⟩
  | succ k ih =>
    intro n
    unfold Env.hmethods
    cases Γ.decl n with
    | none => exact hX n
    | some d =>
      dsimp only
      refine ⟨?_, ?_, ?_⟩
      · cases d with
        | struct strict fields =>
          refine OutAll.bind (hzeroFields_within ih fields) fun zs hzs => OutAll.pure ?_
          simpa only [RefsIn] using hzs
        | «alias» t => exact hzeroT_within ih t
      · intro v hv
        cases d with
        | struct strict fields => exact OutAll.ok hv
        | «alias» t => exact hconvT_within ih t hv
      · intro v p h hc hp
        unfold hdeclMethods
        dsimp only
        exact OutAll.bind (Q := fun _ => True) (fun _ _ => trivial) fun ir _ => hrunFill_step ih ir v hc hp

mutual
theorem RefsIn.of_reaches {h : Heap} : ∀ {v : HVal}, (∀ x, Refers h v x → S x) → RefsIn S v
  | .slice l off len cap, hr => by simp only [RefsIn]; exact fun i h1 h2 => hr _ (.slice h1 h2)
  | .map l, hr => by simp only [RefsIn]; exact hr _ .map
  | .struct fs, hr => by simp only [RefsIn]; exact RefsInL.of_reaches fun w hw x h => hr x (.field hw h)
  | .arr fs, hr => by simp only [RefsIn]; exact RefsInL.of_reaches fun w hw x h => hr x (.item hw h)
  | .int _, _ | .float _, _ | .bool _, _ | .str _, _ | .time _, _ | .uuid _, _ | .nil, _ | .ptr _, _ | .bytes .., _ | .barr _, _ => by
    simp [RefsIn]
theorem RefsInL.of_reaches {h : Heap} : ∀ {vs : List HVal}, (∀ v ∈ vs, ∀ x, Refers h v x → S x) → RefsInL S vs
  | [], _ => by simp [RefsInL]
  | v :: vs, hr => by
    simp only [RefsInL]
    exact ⟨RefsIn.of_reaches (hr v (by simp)), RefsInL.of_reaches fun w hw => hr w (by simp [hw])⟩
end

end

theorem Refers.trans {h : Heap} {v : HVal} {y : MemPart} (a : Refers h v y) :
    ∀ {l i : Nat} {vs : List HVal} {w : HVal} {x : MemPart}, y = .cell l i → h.objs[l]? = some (.cells vs) → vs[i]? = some w →
      Refers h w x → Refers h v x := by
  induction a with
  | slice h1 h2 => intro l i vs w x ey e hi hr; cases ey; exact .elem h1 h2 e hi hr
  | elem h1 h2 h3 h4 _ ih => intro l i vs w x ey e hi hr; exact .elem h1 h2 h3 h4 (ih ey e hi hr)
  | map => intro l i vs w x ey; cases ey
  | field hm _ ih => intro l i vs w x ey e hi hr; exact .field hm (ih ey e hi hr)
  | item hm _ ih => intro l i vs w x ey e hi hr; exact .item hm (ih ey e hi hr)

theorem Touches.closed (h : Heap) (p : Spot) : MemClosed (Touches h p) h := by
  have hread : ∀ l i vs v, h.objs[l]? = some (.cells vs) → vs[i]? = some v → h.read (.cell l i) = some v := by
    intro l i vs v e hi
    simp [Heap.read, Spot.cell, e, hi, HVal.at]
  refine ⟨fun l i vs v e hi hS => RefsIn.of_reaches (h := h) fun x hx => ?_, fun l hl => ?_⟩
  · rcases hS with hS | ⟨u, hu, hS⟩ | ⟨l', hl, hS⟩
    · cases hS
      exact .inr (.inl ⟨v, hread _ _ _ _ e hi, hx⟩)
    · exact .inr (.inl ⟨u, hu, hS.trans rfl e hi hx⟩)
    · have hlt := (List.getElem?_eq_some_iff.mp e).1
      rcases hS with hS | ⟨j, hS⟩
      · cases hS
      · cases hS
        exact absurd hlt (Nat.not_lt.mpr hl)
  · exact ⟨fun i => .inr (.inr ⟨l, hl, .inr ⟨i, rfl⟩⟩), .inr (.inr ⟨l, hl, .inl rfl⟩)⟩

end VJ
