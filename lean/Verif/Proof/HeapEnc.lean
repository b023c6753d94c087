import Verif.Proof.HeapLoop

/-!
# Encoding and `IsZero` in memory do what they do on trees, shared or not
-/

namespace VJ

theorem Rep.deref {h : Heap} {g : GoVal} {v : HVal} {L : List Loc} (hr : Rep h (.ptr g) v L) :
    ∃ l w M, v = .ptr l ∧ h.deref l = .ok w ∧ Rep h g w M := by
  simp only [Rep] at hr
  obtain ⟨l, w, M, rfl, ho, hr, -⟩ := hr
  exact ⟨l, w, M, rfl, by simp [Heap.deref, ho], hr⟩

theorem Rep.window {h : Heap} {es sp : List GoVal} {v : HVal} {L : List Loc} (hr : Rep h (.slice es sp) v L) :
    ∃ l off cap vs M, v = .slice l off es.length cap ∧ h.window l off es.length = .ok vs ∧ RepL h es vs M := by
  simp only [Rep] at hr
  obtain ⟨l, be, vs, ws, af, M, N, rfl, ho, h1, h2, -⟩ := hr
  refine ⟨l, _, _, vs, M, rfl, ?_, h1⟩
  have := h1.length
  simp only [Heap.window, ho, List.length_append]
  rw [if_pos (by omega)]
  simp [← this]

theorem toBytes_cells : ∀ b : List UInt8, toBytes (byteCells b) = .ok b
  | [] => rfl
  | x :: b => by
    have := toBytes_cells b
    simp only [byteCells, List.map_cons, toBytes] at this ⊢
    rw [this]
    simp

theorem Rep.byteList {h : Heap} {b : List UInt8} {v : HVal} {L : List Loc} (hr : Rep h (.bytes b) v L) :
    ∃ l off cap, v = .bytes l off b.length cap ∧ h.byteList l off b.length = .ok b := by
  simp only [Rep] at hr
  obtain ⟨l, be, ws, af, rfl, ho, -⟩ := hr
  refine ⟨l, _, _, rfl, ?_⟩
  have hl : (byteCells b).length = b.length := by simp [byteCells]
  have : h.window l be.length b.length = .ok (byteCells b) := by
    simp only [Heap.window, ho, List.length_append]
    rw [if_pos (by omega)]
    simp [← hl]
  simp only [Heap.byteList, this, Out.ok_bind, toBytes_cells]

theorem Rep.entries {h : Heap} {kvs : List (Str × GoVal)} {v : HVal} {L : List Loc} (hr : Rep h (.map kvs) v L) :
    ∃ l ws M, v = .map l ∧ h.entries l = .ok ws ∧ RepKV h kvs ws M := by
  simp only [Rep] at hr
  obtain ⟨l, ws, M, rfl, ho, hr, -⟩ := hr
  exact ⟨l, ws, M, rfl, by simp [Heap.entries, ho], hr⟩

theorem RepKV.length {h : Heap} : ∀ {gs : List (Str × GoVal)} {vs : List (Str × HVal)} {L : List Loc}, RepKV h gs vs L → vs.length = gs.length
  | [], _, _, hr => by simp only [RepKV] at hr; simp [hr.1]
  | (k, g) :: gs, vs, L, hr => by
    simp only [RepKV] at hr
    obtain ⟨v, vs', M, N, rfl, h1, h2, rfl⟩ := hr
    simp [h2.length]

theorem writeElems_eq {h : Heap} {f : Nat → GoVal → W → Out (Option EErr × W)} {hf : Nat → HVal → W → Out (Option EErr × W)}
    (he : ∀ {g v L}, Rep h g v L → ∀ i w, hf i v w = f i g w) :
    ∀ {gs : List GoVal} {vs : List HVal} {L : List Loc}, RepL h gs vs L → ∀ i sep w, hwriteElems hf i sep vs w = writeElems f i sep gs w
  | [], vs, L, hr => by
    simp only [RepL] at hr
    obtain ⟨rfl, -⟩ := hr
    intro i sep w; rfl
  | g :: gs, vs, L, hr => by
    simp only [RepL] at hr
    obtain ⟨v, vs', M, N, rfl, h1, h2, -⟩ := hr
    intro i sep w
    simp only [hwriteElems, writeElems, he h1]
    congr 1
    funext r
    cases r.1 with
    | some e => rfl
    | none => exact writeElems_eq he h2 _ _ _

theorem writeMembers_eq {h : Heap} {f : Str → GoVal → W → Out (Option EErr × W)} {hf : Str → HVal → W → Out (Option EErr × W)}
    (he : ∀ {g v L}, Rep h g v L → ∀ k w, hf k v w = f k g w) :
    ∀ {gs : List (Str × GoVal)} {vs : List (Str × HVal)} {L : List Loc}, RepKV h gs vs L →
      ∀ sep w, hwriteMembers hf sep vs w = writeMembers f sep gs w
  | [], vs, L, hr => by
    simp only [RepKV] at hr
    obtain ⟨rfl, -⟩ := hr
    intro sep w; rfl
  | (k, g) :: gs, vs, L, hr => by
    simp only [RepKV] at hr
    obtain ⟨v, vs', M, N, rfl, h1, h2, -⟩ := hr
    intro sep w
    simp only [hwriteMembers, writeMembers, he h1]
    congr 1
    funext r
    cases r.1 with
    | some e => rfl
    | none => exact writeMembers_eq he h2 _ _

/-- What a value looks like from outside: one step of following references. -/
theorem Rep.leaf {h : Heap} {g : GoVal} {v : HVal} {L : List Loc} (hr : Rep h g v L) :
    (∃ i, g = .int i ∧ v = .int i) ∨ (∃ f, g = .float f ∧ v = .float f) ∨ (∃ b, g = .bool b ∧ v = .bool b) ∨
    (∃ s, g = .str s ∧ v = .str s) ∨ (∃ t, g = .time t ∧ v = .time t) ∨ (∃ b, g = .uuid b ∧ v = .uuid b) ∨
    (∃ b, g = .barr b ∧ v = .barr b) ∨ (g = .nil ∧ v = .nil) ∨
    (∃ es vs, g = .arr es ∧ v = .arr vs ∧ RepL h es vs L) ∨ (∃ es vs, g = .struct es ∧ v = .struct vs ∧ RepL h es vs L) ∨
    (∃ g' l w M, g = .ptr g' ∧ v = .ptr l ∧ h.deref l = .ok w ∧ Rep h g' w M) ∨
    (∃ es sp l off cap vs M, g = .slice es sp ∧ v = .slice l off es.length cap ∧ h.window l off es.length = .ok vs ∧ RepL h es vs M) ∨
    (∃ b l off cap, g = .bytes b ∧ v = .bytes l off b.length cap ∧ h.byteList l off b.length = .ok b) ∨
    (∃ kvs l ws M, g = .map kvs ∧ v = .map l ∧ h.entries l = .ok ws ∧ RepKV h kvs ws M) := by
  cases g with
  | ptr g => 
    obtain ⟨l, w, M, h1, h2, h3⟩ := hr.deref
    exact .inr (.inr (.inr (.inr (.inr (.inr (.inr (.inr (.inr (.inr (.inl ⟨g, l, w, M, rfl, h1, h2, h3⟩))))))))))
  | slice es sp => 
    obtain ⟨l, off, cap, vs, M, h1, h2, h3⟩ := hr.window
    exact .inr (.inr (.inr (.inr (.inr (.inr (.inr (.inr (.inr (.inr (.inr (.inl ⟨es, sp, l, off, cap, vs, M, rfl, h1, h2, h3⟩)))))))))))
  | bytes b => 
    obtain ⟨l, off, cap, h1, h2⟩ := hr.byteList
    exact .inr (.inr (.inr (.inr (.inr (.inr (.inr (.inr (.inr (.inr (.inr (.inr (.inl ⟨b, l, off, cap, rfl, h1, h2⟩))))))))))))
  | map kvs => 
    obtain ⟨l, ws, M, h1, h2, h3⟩ := hr.entries
    exact .inr (.inr (.inr (.inr (.inr (.inr (.inr (.inr (.inr (.inr (.inr (.inr (.inr ⟨kvs, l, ws, M, rfl, h1, h2, h3⟩))))))))))))
  | arr es => simp only [Rep] at hr; obtain ⟨vs, rfl, hr⟩ := hr; simp [hr]
  | struct es => simp only [Rep] at hr; obtain ⟨vs, rfl, hr⟩ := hr; simp [hr]
  | _ => simp only [Rep] at hr; simp [hr.1]

section
variable [Ext] {M : Nat → Methods} {H : Nat → HMethods} (hM : ∀ n, MSim (M n) (H n)) {h : Heap}
include hM

theorem vext_eq : ∀ (x : VExt) (label : ECtx) {g : GoVal} {v : HVal} {L : List Loc}, Rep h g v L → ∀ w,
    hrunVExt H label h x v w = runVExt M label x g w := by
  intro x
  induction x with
  | call n => intro label g v L hr w; simp only [hrunVExt, runVExt, (hM n).marshal hr]
  | callPtr n =>
    intro label g v L hr w
    rcases hr.leaf with ⟨_, rfl, rfl⟩ | ⟨_, rfl, rfl⟩ | ⟨_, rfl, rfl⟩ | ⟨_, rfl, rfl⟩ | ⟨_, rfl, rfl⟩ | ⟨_, rfl, rfl⟩ | ⟨_, rfl, rfl⟩ | ⟨rfl, rfl⟩ |
      ⟨es, vs, rfl, rfl, hl⟩ | ⟨es, vs, rfl, rfl, hl⟩ | ⟨g', l, u, K, rfl, rfl, hd, hl⟩ | ⟨es, sp, l, off, cap, vs, K, rfl, rfl, hd, hl⟩ |
      ⟨b, l, off, cap, rfl, rfl, hd⟩ | ⟨kvs, l, ws, K, rfl, rfl, hd, hl⟩ <;> try rfl
    · simp only [hrunVExt, runVExt, (hM n).marshalNil]
    · simp only [hrunVExt, runVExt, hd, Out.ok_bind, (hM n).marshal hl]
  | star x ih =>
    intro label g v L hr w
    rcases hr.leaf with ⟨_, rfl, rfl⟩ | ⟨_, rfl, rfl⟩ | ⟨_, rfl, rfl⟩ | ⟨_, rfl, rfl⟩ | ⟨_, rfl, rfl⟩ | ⟨_, rfl, rfl⟩ | ⟨_, rfl, rfl⟩ | ⟨rfl, rfl⟩ |
      ⟨es, vs, rfl, rfl, hl⟩ | ⟨es, vs, rfl, rfl, hl⟩ | ⟨g', l, u, K, rfl, rfl, hd, hl⟩ | ⟨es, sp, l, off, cap, vs, K, rfl, rfl, hd, hl⟩ |
      ⟨b, l, off, cap, rfl, rfl, hd⟩ | ⟨kvs, l, ws, K, rfl, rfl, hd, hl⟩ <;> try rfl
    simp only [hrunVExt, runVExt, hd, Out.ok_bind, ih label hl]
  | arr x ih =>
    intro label g v L hr w
    rcases hr.leaf with ⟨_, rfl, rfl⟩ | ⟨_, rfl, rfl⟩ | ⟨_, rfl, rfl⟩ | ⟨_, rfl, rfl⟩ | ⟨_, rfl, rfl⟩ | ⟨_, rfl, rfl⟩ | ⟨_, rfl, rfl⟩ | ⟨rfl, rfl⟩ |
      ⟨es, vs, rfl, rfl, hl⟩ | ⟨es, vs, rfl, rfl, hl⟩ | ⟨g', l, u, K, rfl, rfl, hd, hl⟩ | ⟨es, sp, l, off, cap, vs, K, rfl, rfl, hd, hl⟩ |
      ⟨b, l, off, cap, rfl, rfl, hd⟩ | ⟨kvs, l, ws, K, rfl, rfl, hd, hl⟩ <;> try rfl
    · simp only [hrunVExt, runVExt]
      rw [writeElems_eq (fun hr i w => ih label hr w) hl]; rfl
    · simp only [hrunVExt, runVExt, hd, Out.ok_bind]
      rw [writeElems_eq (fun hr i w => ih label hr w) hl]; rfl
  | _ =>
    intro label g v L hr w
    rcases hr.leaf with ⟨_, rfl, rfl⟩ | ⟨_, rfl, rfl⟩ | ⟨_, rfl, rfl⟩ | ⟨_, rfl, rfl⟩ | ⟨_, rfl, rfl⟩ | ⟨_, rfl, rfl⟩ | ⟨_, rfl, rfl⟩ | ⟨rfl, rfl⟩ |
      ⟨es, vs, rfl, rfl, hl⟩ | ⟨es, vs, rfl, rfl, hl⟩ | ⟨g', l, u, K, rfl, rfl, hd, hl⟩ | ⟨es, sp, l, off, cap, vs, K, rfl, rfl, hd, hl⟩ |
      ⟨b, l, off, cap, rfl, rfl, hd⟩ | ⟨kvs, l, ws, K, rfl, rfl, hd, hl⟩ <;> rfl

theorem list_eq (name : Str) (x : VExt) {gs : List GoVal} {vs : List HVal} {L : List Loc} (hr : RepL h gs vs L) (w : W) :
    hwriteList H name x vs h w = writeList M name x gs w := by
  simp only [hwriteList, writeList]
  rw [writeElems_eq (fun hr i w => vext_eq hM x (itemLabel name i) hr w) hr]; rfl

theorem map_eq (name : Str) (x : VExt) {gs : List (Str × GoVal)} {vs : List (Str × HVal)} {L : List Loc} (hr : RepKV h gs vs L) (w : W) :
    hwriteMap H name x vs h w = writeMap M name x gs w := by
  simp only [hwriteMap, writeMap]
  rw [writeMembers_eq (fun hr k w => vext_eq hM x (memberLabel name k) hr w) hr]; rfl

omit [Ext] hM in
/-- Following pointers. -/
theorem hderef_rel : ∀ (d : Nat) {g : GoVal} {v : HVal} {L : List Loc}, Rep h g v L →
    OutRel (fun g' v' => ∃ K, Rep h g' v' K) (deref d g) (hderef h d v)
  | 0, g, v, L, hr => ⟨L, hr⟩
  | d + 1, g, v, L, hr => by
    rcases hr.leaf with ⟨_, rfl, rfl⟩ | ⟨_, rfl, rfl⟩ | ⟨_, rfl, rfl⟩ | ⟨_, rfl, rfl⟩ | ⟨_, rfl, rfl⟩ | ⟨_, rfl, rfl⟩ | ⟨_, rfl, rfl⟩ | ⟨rfl, rfl⟩ |
      ⟨es, vs, rfl, rfl, hl⟩ | ⟨es, vs, rfl, rfl, hl⟩ | ⟨g', l, u, K, rfl, rfl, hd, hl⟩ | ⟨es, sp, l, off, cap, vs, K, rfl, rfl, hd, hl⟩ |
      ⟨b, l, off, cap, rfl, rfl, hd⟩ | ⟨kvs, l, ws, K, rfl, rfl, hd, hl⟩ <;> try trivial
    simp only [deref, hderef, hd, Out.ok_bind]
    exact hderef_rel d hl

omit [Ext] hM in
/-- … and going on with what is there. -/
theorem hderef_bind {α : Type} {d : Nat} {g : GoVal} {v : HVal} {L : List Loc} (hr : Rep h g v L) {f : GoVal → Out α} {hf : HVal → Out α}
    (he : ∀ {g v L}, Rep h g v L → hf v = f g) : (hderef h d v >>= hf) = (deref d g >>= f) := by
  have := hderef_rel d hr
  cases hg : deref d g <;> cases hv : hderef h d v <;> rw [hg, hv] at this <;> try exact this.elim
  · obtain ⟨K, hK⟩ := this
    exact he hK
  all_goals rfl

theorem body_eq (name : Str) (b : Body) {g : GoVal} {v : HVal} {L : List Loc} (hr : Rep h g v L) (w : W) :
    hrunBody H name b v h w = runBody M name b g w := by
  cases b with
  | prim pw d =>
    refine hderef_bind hr fun {g v L} hr => ?_
    rcases hr.leaf with ⟨_, rfl, rfl⟩ | ⟨_, rfl, rfl⟩ | ⟨_, rfl, rfl⟩ | ⟨_, rfl, rfl⟩ | ⟨_, rfl, rfl⟩ | ⟨_, rfl, rfl⟩ | ⟨_, rfl, rfl⟩ | ⟨rfl, rfl⟩ |
      ⟨es, vs, rfl, rfl, hl⟩ | ⟨es, vs, rfl, rfl, hl⟩ | ⟨g', l, u, K, rfl, rfl, hd, hl⟩ | ⟨es, sp, l, off, cap, vs, K, rfl, rfl, hd, hl⟩ |
      ⟨b, l, off, cap, rfl, rfl, hd⟩ | ⟨kvs, l, ws, K, rfl, rfl, hd, hl⟩ <;> cases pw <;> rfl
  | boolTrue => rfl
  | refBool d =>
    refine hderef_bind hr fun {g v L} hr => ?_
    rcases hr.leaf with ⟨_, rfl, rfl⟩ | ⟨_, rfl, rfl⟩ | ⟨_, rfl, rfl⟩ | ⟨_, rfl, rfl⟩ | ⟨_, rfl, rfl⟩ | ⟨_, rfl, rfl⟩ | ⟨_, rfl, rfl⟩ | ⟨rfl, rfl⟩ |
      ⟨es, vs, rfl, rfl, hl⟩ | ⟨es, vs, rfl, rfl, hl⟩ | ⟨g', l, u, K, rfl, rfl, hd, hl⟩ | ⟨es, sp, l, off, cap, vs, K, rfl, rfl, hd, hl⟩ |
      ⟨b, l, off, cap, rfl, rfl, hd⟩ | ⟨kvs, l, ws, K, rfl, rfl, hd, hl⟩ <;> rfl
  | time layout d =>
    refine hderef_bind hr fun {g v L} hr => ?_
    rcases hr.leaf with ⟨_, rfl, rfl⟩ | ⟨_, rfl, rfl⟩ | ⟨_, rfl, rfl⟩ | ⟨_, rfl, rfl⟩ | ⟨_, rfl, rfl⟩ | ⟨_, rfl, rfl⟩ | ⟨_, rfl, rfl⟩ | ⟨rfl, rfl⟩ |
      ⟨es, vs, rfl, rfl, hl⟩ | ⟨es, vs, rfl, rfl, hl⟩ | ⟨g', l, u, K, rfl, rfl, hd, hl⟩ | ⟨es, sp, l, off, cap, vs, K, rfl, rfl, hd, hl⟩ |
      ⟨b, l, off, cap, rfl, rfl, hd⟩ | ⟨kvs, l, ws, K, rfl, rfl, hd, hl⟩ <;> rfl
  | uuid star =>
    refine hderef_bind hr fun {g v L} hr => ?_
    rcases hr.leaf with ⟨_, rfl, rfl⟩ | ⟨_, rfl, rfl⟩ | ⟨_, rfl, rfl⟩ | ⟨_, rfl, rfl⟩ | ⟨_, rfl, rfl⟩ | ⟨_, rfl, rfl⟩ | ⟨_, rfl, rfl⟩ | ⟨rfl, rfl⟩ |
      ⟨es, vs, rfl, rfl, hl⟩ | ⟨es, vs, rfl, rfl, hl⟩ | ⟨g', l, u, K, rfl, rfl, hd, hl⟩ | ⟨es, sp, l, off, cap, vs, K, rfl, rfl, hd, hl⟩ |
      ⟨b, l, off, cap, rfl, rfl, hd⟩ | ⟨kvs, l, ws, K, rfl, rfl, hd, hl⟩ <;> rfl
  | struct n star =>
    refine hderef_bind hr fun {g v L} hr => ?_
    rw [(hM n).marshal hr]
  | inline n =>
    simp only [hrunBody, runBody, hmarshalJSON, marshalJSON, (hM n).marshal hr]; rfl
  | map x =>
    rcases hr.leaf with ⟨_, rfl, rfl⟩ | ⟨_, rfl, rfl⟩ | ⟨_, rfl, rfl⟩ | ⟨_, rfl, rfl⟩ | ⟨_, rfl, rfl⟩ | ⟨_, rfl, rfl⟩ | ⟨_, rfl, rfl⟩ | ⟨rfl, rfl⟩ |
      ⟨es, vs, rfl, rfl, hl⟩ | ⟨es, vs, rfl, rfl, hl⟩ | ⟨g', l, u, K, rfl, rfl, hd, hl⟩ | ⟨es, sp, l, off, cap, vs, K, rfl, rfl, hd, hl⟩ |
      ⟨b, l, off, cap, rfl, rfl, hd⟩ | ⟨kvs, l, ws, K, rfl, rfl, hd, hl⟩ <;> try rfl
    simp only [hrunBody, runBody, hd, Out.ok_bind]
    exact map_eq hM name x hl _
  | arr x =>
    rcases hr.leaf with ⟨_, rfl, rfl⟩ | ⟨_, rfl, rfl⟩ | ⟨_, rfl, rfl⟩ | ⟨_, rfl, rfl⟩ | ⟨_, rfl, rfl⟩ | ⟨_, rfl, rfl⟩ | ⟨_, rfl, rfl⟩ | ⟨rfl, rfl⟩ |
      ⟨es, vs, rfl, rfl, hl⟩ | ⟨es, vs, rfl, rfl, hl⟩ | ⟨g', l, u, K, rfl, rfl, hd, hl⟩ | ⟨es, sp, l, off, cap, vs, K, rfl, rfl, hd, hl⟩ |
      ⟨b, l, off, cap, rfl, rfl, hd⟩ | ⟨kvs, l, ws, K, rfl, rfl, hd, hl⟩ <;> try rfl
    · exact list_eq hM name x hl _
    · simp only [hrunBody, runBody, hd, Out.ok_bind]
      exact list_eq hM name x hl _
  | bytes =>
    rcases hr.leaf with ⟨_, rfl, rfl⟩ | ⟨_, rfl, rfl⟩ | ⟨_, rfl, rfl⟩ | ⟨_, rfl, rfl⟩ | ⟨_, rfl, rfl⟩ | ⟨_, rfl, rfl⟩ | ⟨_, rfl, rfl⟩ | ⟨rfl, rfl⟩ |
      ⟨es, vs, rfl, rfl, hl⟩ | ⟨es, vs, rfl, rfl, hl⟩ | ⟨g', l, u, K, rfl, rfl, hd, hl⟩ | ⟨es, sp, l, off, cap, vs, K, rfl, rfl, hd, hl⟩ |
      ⟨b, l, off, cap, rfl, rfl, hd⟩ | ⟨kvs, l, ws, K, rfl, rfl, hd, hl⟩ <;> try rfl
    simp only [hrunBody, runBody, hd, Out.ok_bind]
    rfl

omit [Ext] hM in
theorem eqZero_eq {g : GoVal} {v : HVal} {L : List Loc} (hr : Rep h g v L) : heqZero v = eqZero g := by
  rcases hr.leaf with ⟨_, rfl, rfl⟩ | ⟨_, rfl, rfl⟩ | ⟨_, rfl, rfl⟩ | ⟨_, rfl, rfl⟩ | ⟨_, rfl, rfl⟩ | ⟨_, rfl, rfl⟩ | ⟨_, rfl, rfl⟩ | ⟨rfl, rfl⟩ |
    ⟨es, vs, rfl, rfl, hl⟩ | ⟨es, vs, rfl, rfl, hl⟩ | ⟨g', l, u, K, rfl, rfl, hd, hl⟩ | ⟨es, sp, l, off, cap, vs, K, rfl, rfl, hd, hl⟩ |
    ⟨b, l, off, cap, rfl, rfl, hd⟩ | ⟨kvs, l, ws, K, rfl, rfl, hd, hl⟩ <;> rfl

omit [Ext] in
theorem cond_eq (c : Cond) {g : GoVal} {v : HVal} {L : List Loc} (hr : Rep h g v L) : hrunCond H c v h = runCond M c g := by
  cases c with
  | neZero => simp only [hrunCond, runCond, eqZero_eq hr]
  | method n => simp only [hrunCond, runCond, (hM n).isZero hr]
  | timeNotZero =>
    rcases hr.leaf with ⟨_, rfl, rfl⟩ | ⟨_, rfl, rfl⟩ | ⟨_, rfl, rfl⟩ | ⟨_, rfl, rfl⟩ | ⟨_, rfl, rfl⟩ | ⟨_, rfl, rfl⟩ | ⟨_, rfl, rfl⟩ | ⟨rfl, rfl⟩ |
      ⟨es, vs, rfl, rfl, hl⟩ | ⟨es, vs, rfl, rfl, hl⟩ | ⟨g', l, u, K, rfl, rfl, hd, hl⟩ | ⟨es, sp, l, off, cap, vs, K, rfl, rfl, hd, hl⟩ |
      ⟨b, l, off, cap, rfl, rfl, hd⟩ | ⟨kvs, l, ws, K, rfl, rfl, hd, hl⟩ <;> rfl
  | notNil2 =>
    rcases hr.leaf with ⟨_, rfl, rfl⟩ | ⟨_, rfl, rfl⟩ | ⟨_, rfl, rfl⟩ | ⟨_, rfl, rfl⟩ | ⟨_, rfl, rfl⟩ | ⟨_, rfl, rfl⟩ | ⟨_, rfl, rfl⟩ | ⟨rfl, rfl⟩ |
      ⟨es, vs, rfl, rfl, hl⟩ | ⟨es, vs, rfl, rfl, hl⟩ | ⟨g', l, u, K, rfl, rfl, hd, hl⟩ | ⟨es, sp, l, off, cap, vs, K, rfl, rfl, hd, hl⟩ |
      ⟨b, l, off, cap, rfl, rfl, hd⟩ | ⟨kvs, l, ws, K, rfl, rfl, hd, hl⟩ <;> try rfl
    simp only [hrunCond, hd, Out.ok_bind]
    rcases hl.leaf with ⟨_, rfl, rfl⟩ | ⟨_, rfl, rfl⟩ | ⟨_, rfl, rfl⟩ | ⟨_, rfl, rfl⟩ | ⟨_, rfl, rfl⟩ | ⟨_, rfl, rfl⟩ | ⟨_, rfl, rfl⟩ | ⟨rfl, rfl⟩ |
      ⟨es, vs, rfl, rfl, hl⟩ | ⟨es, vs, rfl, rfl, hl⟩ | ⟨g', l, u, K, rfl, rfl, hd, hl⟩ | ⟨es, sp, l, off, cap, vs, K, rfl, rfl, hd, hl⟩ |
      ⟨b, l, off, cap, rfl, rfl, hd⟩ | ⟨kvs, l, ws, K, rfl, rfl, hd, hl⟩ <;> rfl

theorem blk_eq (b : Blk) {g : GoVal} {v : HVal} {L : List Loc} (hr : Rep h g v L) (wc : Bool) (w : W) :
    hrunBlk H b v h wc w = runBlk M b g wc w := by
  simp only [hrunBlk, runBlk]
  cases b.cond with
  | none => simp only [body_eq hM b.name b.body hr]
  | some c => simp only [cond_eq hM c hr, body_eq hM b.name b.body hr]; rfl

theorem blks_eq : ∀ (bs : List Blk) {gs : List GoVal} {vs : List HVal} {L : List Loc}, RepL h gs vs L → ∀ wc w,
    hrunBlks H h bs vs wc w = runBlks M bs gs wc w
  | [], [], vs, L, hr, wc, w => by
    simp only [RepL] at hr
    obtain ⟨rfl, -⟩ := hr
    rfl
  | [], g :: gs, vs, L, hr, wc, w => by
    simp only [RepL] at hr
    obtain ⟨v, vs', M', N, rfl, h1, h2, -⟩ := hr
    rfl
  | b :: bs, [], vs, L, hr, wc, w => by
    simp only [RepL] at hr
    obtain ⟨rfl, -⟩ := hr
    rfl
  | b :: bs, g :: gs, vs, L, hr, wc, w => by
    simp only [RepL] at hr
    obtain ⟨v, vs', M', N, rfl, h1, h2, -⟩ := hr
    simp only [hrunBlks, runBlks, blk_eq hM b h1]
    congr 1
    funext r
    cases r.1 with
    | some e => rfl
    | none => exact blks_eq bs h2 _ _

/-- `MarshalTo` of a declared type. -/
theorem hrunMarshal_eq (ir : MarshalIR) {g : GoVal} {v : HVal} {L : List Loc} (hr : Rep h g v L) (w : W) :
    hrunMarshal H ir (some v) h w = runMarshal M ir (some g) w := by
  cases ir with
  | call n => exact (hM n).marshal hr w
  | struct bs =>
    cases bs with
    | nil => rfl
    | cons b bs =>
      rcases hr.leaf with ⟨_, rfl, rfl⟩ | ⟨_, rfl, rfl⟩ | ⟨_, rfl, rfl⟩ | ⟨_, rfl, rfl⟩ | ⟨_, rfl, rfl⟩ | ⟨_, rfl, rfl⟩ | ⟨_, rfl, rfl⟩ | ⟨rfl, rfl⟩ |
        ⟨es, vs, rfl, rfl, hl⟩ | ⟨es, vs, rfl, rfl, hl⟩ | ⟨g', l, u, K, rfl, rfl, hd, hl⟩ | ⟨es, sp, l, off, cap, vs, K, rfl, rfl, hd, hl⟩ |
        ⟨b, l, off, cap, rfl, rfl, hd⟩ | ⟨kvs, l, ws, K, rfl, rfl, hd, hl⟩ <;> try rfl
      simp only [hrunMarshal, runMarshal, blks_eq hM _ hl]; rfl
  | prim p =>
    rcases hr.leaf with ⟨_, rfl, rfl⟩ | ⟨_, rfl, rfl⟩ | ⟨_, rfl, rfl⟩ | ⟨_, rfl, rfl⟩ | ⟨_, rfl, rfl⟩ | ⟨_, rfl, rfl⟩ | ⟨_, rfl, rfl⟩ | ⟨rfl, rfl⟩ |
      ⟨es, vs, rfl, rfl, hl⟩ | ⟨es, vs, rfl, rfl, hl⟩ | ⟨g', l, u, K, rfl, rfl, hd, hl⟩ | ⟨es, sp, l, off, cap, vs, K, rfl, rfl, hd, hl⟩ |
      ⟨b, l, off, cap, rfl, rfl, hd⟩ | ⟨kvs, l, ws, K, rfl, rfl, hd, hl⟩ <;> cases p <;> rfl
  | _ =>
    rcases hr.leaf with ⟨_, rfl, rfl⟩ | ⟨_, rfl, rfl⟩ | ⟨_, rfl, rfl⟩ | ⟨_, rfl, rfl⟩ | ⟨_, rfl, rfl⟩ | ⟨_, rfl, rfl⟩ | ⟨_, rfl, rfl⟩ | ⟨rfl, rfl⟩ |
      ⟨es, vs, rfl, rfl, hl⟩ | ⟨es, vs, rfl, rfl, hl⟩ | ⟨g', l, u, K, rfl, rfl, hd, hl⟩ | ⟨es, sp, l, off, cap, vs, K, rfl, rfl, hd, hl⟩ |
      ⟨b, l, off, cap, rfl, rfl, hd⟩ | ⟨kvs, l, ws, K, rfl, rfl, hd, hl⟩ <;>
      first
        | rfl
        | (simp only [hrunMarshal, runMarshal, list_eq hM _ _ hl]; rfl)
        | (simp only [hrunMarshal, runMarshal, hd, Out.ok_bind, list_eq hM _ _ hl]; rfl)
        | (simp only [hrunMarshal, runMarshal, hd, Out.ok_bind, map_eq hM _ _ hl]; rfl)
        | (simp only [hrunMarshal, runMarshal, hd, Out.ok_bind]; rfl)

omit hM in
theorem hrunMarshal_nil (ir : MarshalIR) (w : W) : hrunMarshal H ir none h w = runMarshal M ir none w := by
  cases ir with
  | struct bs => cases bs <;> rfl
  | _ => rfl

omit [Ext] in
theorem ztest_eq (t : ZTest) {g : GoVal} {v : HVal} {L : List Loc} (hr : Rep h g v L) : hrunZTest H h t v = runZTest M t g := by
  cases t with
  | const => simp only [hrunZTest, runZTest, eqZero_eq hr]
  | method n => exact (hM n).isZero hr
  | time =>
    rcases hr.leaf with ⟨_, rfl, rfl⟩ | ⟨_, rfl, rfl⟩ | ⟨_, rfl, rfl⟩ | ⟨_, rfl, rfl⟩ | ⟨_, rfl, rfl⟩ | ⟨_, rfl, rfl⟩ | ⟨_, rfl, rfl⟩ | ⟨rfl, rfl⟩ |
      ⟨es, vs, rfl, rfl, hl⟩ | ⟨es, vs, rfl, rfl, hl⟩ | ⟨g', l, u, K, rfl, rfl, hd, hl⟩ | ⟨es, sp, l, off, cap, vs, K, rfl, rfl, hd, hl⟩ |
      ⟨b, l, off, cap, rfl, rfl, hd⟩ | ⟨kvs, l, ws, K, rfl, rfl, hd, hl⟩ <;> rfl

omit [Ext] in
theorem ztests_eq : ∀ (ts : List ZTest) {gs : List GoVal} {vs : List HVal} {L : List Loc}, RepL h gs vs L →
    hrunZTests H h ts vs = runZTests M ts gs
  | [], [], vs, L, hr => by
    simp only [RepL] at hr
    obtain ⟨rfl, -⟩ := hr
    rfl
  | [], g :: gs, vs, L, hr => by
    simp only [RepL] at hr
    obtain ⟨v, vs', M', N, rfl, h1, h2, -⟩ := hr
    rfl
  | t :: ts, [], vs, L, hr => by
    simp only [RepL] at hr
    obtain ⟨rfl, -⟩ := hr
    rfl
  | t :: ts, g :: gs, vs, L, hr => by
    simp only [RepL] at hr
    obtain ⟨v, vs', M', N, rfl, h1, h2, -⟩ := hr
    simp only [hrunZTests, runZTests, ztest_eq hM t h1, ztests_eq ts h2]

omit [Ext] in
theorem all_eq (t : ZTest) : ∀ {gs : List GoVal} {vs : List HVal} {L : List Loc}, RepL h gs vs L →
    hrunAll H h t vs = runAll M t gs
  | [], vs, L, hr => by
    simp only [RepL] at hr
    obtain ⟨rfl, -⟩ := hr
    rfl
  | g :: gs, vs, L, hr => by
    simp only [RepL] at hr
    obtain ⟨v, vs', M', N, rfl, h1, h2, -⟩ := hr
    simp only [hrunAll, runAll, ztest_eq hM t h1, all_eq t h2]
    rfl

omit [Ext] hM in
theorem hlen_eq {g : GoVal} {v : HVal} {L : List Loc} (hr : Rep h g v L) : hlen h v = g.len := by
  rcases hr.leaf with ⟨_, rfl, rfl⟩ | ⟨_, rfl, rfl⟩ | ⟨_, rfl, rfl⟩ | ⟨_, rfl, rfl⟩ | ⟨_, rfl, rfl⟩ | ⟨_, rfl, rfl⟩ | ⟨_, rfl, rfl⟩ | ⟨rfl, rfl⟩ |
    ⟨es, vs, rfl, rfl, hl⟩ | ⟨es, vs, rfl, rfl, hl⟩ | ⟨g', l, u, K, rfl, rfl, hd, hl⟩ | ⟨es, sp, l, off, cap, vs, K, rfl, rfl, hd, hl⟩ |
    ⟨b, l, off, cap, rfl, rfl, hd⟩ | ⟨kvs, l, ws, K, rfl, rfl, hd, hl⟩ <;> try rfl
  simp only [hlen, hd, Out.ok_bind, GoVal.len, ← hl.length]
  rfl

omit [Ext] in
/-- `IsZero` of a declared type. -/
theorem hrunZero_eq (ir : ZeroIR) {g : GoVal} {v : HVal} {L : List Loc} (hr : Rep h g v L) : hrunZero H ir v h = runZero M ir g := by
  cases ir with
  | never => rfl
  | len => simp only [hrunZero, runZero, hlen_eq hr]
  | single t => exact ztest_eq hM t hr
  | _ =>
    rcases hr.leaf with ⟨_, rfl, rfl⟩ | ⟨_, rfl, rfl⟩ | ⟨_, rfl, rfl⟩ | ⟨_, rfl, rfl⟩ | ⟨_, rfl, rfl⟩ | ⟨_, rfl, rfl⟩ | ⟨_, rfl, rfl⟩ | ⟨rfl, rfl⟩ |
      ⟨es, vs, rfl, rfl, hl⟩ | ⟨es, vs, rfl, rfl, hl⟩ | ⟨g', l, u, K, rfl, rfl, hd, hl⟩ | ⟨es, sp, l, off, cap, vs, K, rfl, rfl, hd, hl⟩ |
      ⟨b, l, off, cap, rfl, rfl, hd⟩ | ⟨kvs, l, ws, K, rfl, rfl, hd, hl⟩ <;>
      first | rfl | exact ztests_eq hM _ hl | exact all_eq hM _ hl

end

end VJ
