import Verif.Model.Pool
import Verif.Spec.TextApi
import Verif.Props.Determinism
import Verif.Props.Total
import Verif.Props.Text

/-!
# C36, C37: concurrent decodes and the pools of parsers
-/

namespace VJ

section
variable {V R : Type} {parse : Str → Option V} {calls : Nat → Call V R}

@[simp] theorem update_same {α : Type} (f : Nat → α) (n : Nat) (a : α) : update f n a n = a := by
  simp [update]

theorem update_ne {α : Type} (f : Nat → α) {n m : Nat} (a : α) (h : m ≠ n) :
    update f n a m = f m := by
  simp [update, h]

/-- The result a call has when it runs alone. -/
def Call.alone (parse : Str → Option V) (c : Call V R) : CallResult R :=
  match parse c.data with
  | none => .parseError
  | some v => .finished (c.fill.alone v)

/-- Reached from the beginning, by any schedule. -/
def Reached (parse : Str → Option V) (calls : Nat → Call V R) (w : World V R) : Prop :=
  Run parse calls .init w

/-- What holds of a call at any time. -/
def CallOk (parse : Str → Option V) (calls : Nat → Call V R) (w : World V R) (t : Nat) : Prop :=
  match w.pc t with
  | .start => True
  | .got _ => True
  | .filling p body => ∃ v, parse (calls t).data = some v ∧ w.mem p = some v ∧
      body.alone v = (calls t).fill.alone v
  | .filled _ r => ∃ v, parse (calls t).data = some v ∧ r = (calls t).fill.alone v
  | .done r => r = (calls t).alone parse

/-- What holds at any time. -/
structure PoolInv (parse : Str → Option V) (calls : Nat → Call V R) (w : World V R) : Prop where
  held : ∀ {t t' p}, (w.pc t).holds = some p → (w.pc t').holds = some p → t = t'
  notPooled : ∀ {t p n}, (w.pc t).holds = some p → p ∉ w.pool n
  nodup : ∀ n, (w.pool n).Nodup
  disjoint : ∀ {n m p}, p ∈ w.pool n → p ∈ w.pool m → n = m
  heldMade : ∀ {t p}, (w.pc t).holds = some p → p < w.made
  pooledMade : ∀ {n p}, p ∈ w.pool n → p < w.made
  ok : ∀ t, CallOk parse calls w t

theorem poolInv_init : PoolInv parse calls (.init : World V R) where
  held := by intro t t' p h; simp [World.init, Pc.holds] at h
  notPooled := by intro t p n h; simp [World.init, Pc.holds] at h
  nodup := by intro n; simp [World.init]
  disjoint := by intro n m p h; simp [World.init] at h
  heldMade := by intro t p h; simp [World.init, Pc.holds] at h
  pooledMade := by intro n p h; simp [World.init] at h
  ok := by intro t; trivial

/-- Calls other than `t` are as they were. -/
theorem callOk_frame {w w' : World V R} {t u : Nat} (hne : u ≠ t)
    (hpc : ∀ u, u ≠ t → w'.pc u = w.pc u)
    (hmem : ∀ p, (w.pc u).holds = some p → w'.mem p = w.mem p)
    (h : CallOk parse calls w u) : CallOk parse calls w' u := by
  unfold CallOk at h ⊢
  rw [hpc u hne]
  cases hp : w.pc u with
  | start => trivial
  | got => trivial
  | filling p body =>
    rw [hp] at h
    obtain ⟨v, h1, h2, h3⟩ := h
    exact ⟨v, h1, (hmem p (by rw [hp]; rfl)).trans h2, h3⟩
  | filled => rw [hp] at h; exact h
  | done => rw [hp] at h; exact h

/-- A step of call `t` that keeps the parser it holds, and the pools. -/
theorem poolInv_same {w w' : World V R} {t p : Nat} (hI : PoolInv parse calls w)
    (hpool : w'.pool = w.pool) (hmade : w'.made = w.made)
    (hpc : ∀ u, u ≠ t → w'.pc u = w.pc u)
    (hw : (w.pc t).holds = some p)
    (hh : (w'.pc t).holds = some p ∨ (w'.pc t).holds = none)
    (hmem : ∀ q, q ≠ p → w'.mem q = w.mem q)
    (hok : CallOk parse calls w' t) : PoolInv parse calls w' := by
  have hold : ∀ {u q}, (w'.pc u).holds = some q → (w.pc u).holds = some q := by
    intro u q h
    by_cases hu : u = t
    · subst hu
      rcases hh with hh | hh
      · rw [hw, ← hh]; exact h
      · rw [hh] at h; cases h
    · rw [hpc u hu] at h; exact h
  refine ⟨fun h h' => hI.held (hold h) (hold h'), fun h => ?_, fun n => ?_, fun h h' => ?_,
    fun h => ?_, fun h => ?_, fun u => ?_⟩
  · rw [hpool]; exact hI.notPooled (hold h)
  · rw [hpool]; exact hI.nodup n
  · rw [hpool] at h h'; exact hI.disjoint h h'
  · rw [hmade]; exact hI.heldMade (hold h)
  · rw [hpool] at h; rw [hmade]; exact hI.pooledMade h
  · by_cases hu : u = t
    · subst hu; exact hok
    · refine callOk_frame hu hpc (fun q hq => hmem q ?_) (hI.ok u)
      rintro rfl
      exact hu (hI.held hq hw)

theorem poolInv_step {w w' : World V R} (hI : PoolInv parse calls w) (h : PoolStep parse calls w w') :
    PoolInv parse calls w' := by
  cases h with
  | getNew t ht =>
    have hold : ∀ {u q}, (update w.pc t (.got w.made) u).holds = some q →
        (u = t ∧ q = w.made) ∨ (u ≠ t ∧ (w.pc u).holds = some q) := by
      intro u q h
      by_cases hu : u = t
      · subst hu; rw [update_same] at h; simp [Pc.holds] at h; exact .inl ⟨rfl, h.symm⟩
      · rw [update_ne _ _ hu] at h; exact .inr ⟨hu, h⟩
    refine ⟨fun h h' => ?_, fun h => ?_, hI.nodup, hI.disjoint, fun h => ?_, fun h => ?_, fun u => ?_⟩
    · rcases hold h with ⟨e, e1⟩ | ⟨_, g⟩ <;> rcases hold h' with ⟨e', e1'⟩ | ⟨_, g'⟩
      · exact e.trans e'.symm
      · exact absurd (hI.heldMade g') (e1 ▸ Nat.lt_irrefl _)
      · exact absurd (hI.heldMade g) (e1' ▸ Nat.lt_irrefl _)
      · exact hI.held g g'
    · rcases hold h with ⟨rfl, rfl⟩ | ⟨_, h⟩
      · exact fun hm => absurd (hI.pooledMade hm) (Nat.lt_irrefl _)
      · exact hI.notPooled h
    · rcases hold h with ⟨rfl, rfl⟩ | ⟨_, h⟩
      · exact Nat.lt_succ_self _
      · exact Nat.lt_succ_of_lt (hI.heldMade h)
    · exact Nat.lt_succ_of_lt (hI.pooledMade h)
    · by_cases hu : u = t
      · subst hu; simp [CallOk]
      · exact callOk_frame hu (fun u hu => update_ne _ _ hu) (fun _ _ => rfl) (hI.ok u)
  | getPooled t p ht hp =>
    have hold : ∀ {u q}, (update w.pc t (.got p) u).holds = some q →
        (u = t ∧ q = p) ∨ (u ≠ t ∧ (w.pc u).holds = some q) := by
      intro u q h
      by_cases hu : u = t
      · subst hu; rw [update_same] at h; simp [Pc.holds] at h; exact .inl ⟨rfl, h.symm⟩
      · rw [update_ne _ _ hu] at h; exact .inr ⟨hu, h⟩
    have hpool : ∀ {n q}, q ∈ update w.pool (calls t).typ ((w.pool (calls t).typ).erase p) n →
        q ∈ w.pool n ∧ q ≠ p := by
      intro n q h
      by_cases hn : n = (calls t).typ
      · subst hn
        rw [update_same] at h
        exact ⟨List.mem_of_mem_erase h, fun hq => (hI.nodup _).not_mem_erase (hq ▸ h)⟩
      · rw [update_ne _ _ hn] at h
        exact ⟨h, fun hq => hn (hI.disjoint (hq ▸ h) hp)⟩
    refine ⟨fun h h' => ?_, fun h => ?_, fun n => ?_, fun h h' => hI.disjoint (hpool h).1 (hpool h').1,
      fun h => ?_, fun h => hI.pooledMade (hpool h).1, fun u => ?_⟩
    · rcases hold h with ⟨e, e1⟩ | ⟨_, g⟩ <;> rcases hold h' with ⟨e', e1'⟩ | ⟨_, g'⟩
      · exact e.trans e'.symm
      · exact absurd hp (hI.notPooled (e1 ▸ g'))
      · exact absurd hp (hI.notPooled (e1' ▸ g))
      · exact hI.held g g'
    · intro hm
      obtain ⟨hm, hne⟩ := hpool hm
      rcases hold h with ⟨rfl, rfl⟩ | ⟨_, h⟩
      · exact hne rfl
      · exact hI.notPooled h hm
    · by_cases hn : n = (calls t).typ
      · subst hn; simp only [update_same]; exact (hI.nodup _).erase _
      · simp only [update_ne _ _ hn]; exact hI.nodup n
    · rcases hold h with ⟨rfl, rfl⟩ | ⟨_, h⟩
      · exact hI.pooledMade hp
      · exact hI.heldMade h
    · by_cases hu : u = t
      · subst hu; simp [CallOk]
      · exact callOk_frame hu (fun u hu => update_ne _ _ hu) (fun _ _ => rfl) (hI.ok u)
  | parseOk t p v ht hv =>
    refine poolInv_same hI rfl rfl (fun u hu => update_ne _ _ hu) (by rw [ht]; rfl) (p := p)
      (.inl (by simp [Pc.holds])) (fun q hq => update_ne _ _ hq) ?_
    unfold CallOk
    simp only [update_same]
    exact ⟨v, hv, rfl, trivial⟩
  | parseFail t p junk ht hv =>
    refine poolInv_same hI rfl rfl (fun u hu => update_ne _ _ hu) (by rw [ht]; rfl) (p := p)
      (.inr (by simp [Pc.holds])) (fun q hq => update_ne _ _ hq) ?_
    unfold CallOk
    simp only [update_same, Call.alone, hv]
  | look t p next v ht hv =>
    refine poolInv_same hI rfl rfl (fun u hu => update_ne _ _ hu) (by rw [ht]; rfl) (p := p)
      (.inl (by simp [Pc.holds])) (fun q hq => rfl) ?_
    have := hI.ok t
    unfold CallOk at this ⊢
    rw [ht] at this
    obtain ⟨v', h1, h2, h3⟩ := this
    rw [hv] at h2
    cases h2
    simp only [update_same]
    exact ⟨v, h1, hv, h3⟩
  | fillReturns t p r ht =>
    refine poolInv_same hI rfl rfl (fun u hu => update_ne _ _ hu) (by rw [ht]; rfl) (p := p)
      (.inl (by simp [Pc.holds])) (fun q hq => rfl) ?_
    have := hI.ok t
    unfold CallOk at this ⊢
    rw [ht] at this
    obtain ⟨v, h1, h2, h3⟩ := this
    simp only [update_same]
    exact ⟨v, h1, h3⟩
  | put t p r ht =>
    have hp : (w.pc t).holds = some p := by rw [ht]; rfl
    have hold : ∀ {u q}, (update w.pc t (.done (.finished r)) u).holds = some q →
        u ≠ t ∧ (w.pc u).holds = some q := by
      intro u q h
      by_cases hu : u = t
      · subst hu; rw [update_same] at h; simp [Pc.holds] at h
      · rw [update_ne _ _ hu] at h; exact ⟨hu, h⟩
    have hpool : ∀ {n q}, q ∈ update w.pool (calls t).typ (p :: w.pool (calls t).typ) n →
        (q = p ∧ n = (calls t).typ) ∨ q ∈ w.pool n := by
      intro n q h
      by_cases hn : n = (calls t).typ
      · subst hn
        rw [update_same] at h
        rcases List.mem_cons.1 h with h | h
        · exact .inl ⟨h, rfl⟩
        · exact .inr h
      · rw [update_ne _ _ hn] at h; exact .inr h
    refine ⟨fun h h' => hI.held (hold h).2 (hold h').2, fun h => ?_, fun n => ?_, fun h h' => ?_,
      fun h => hI.heldMade (hold h).2, fun h => ?_, fun u => ?_⟩
    · obtain ⟨hu, g⟩ := hold h
      intro hm
      rcases hpool hm with ⟨e, _⟩ | hm
      · exact hu (hI.held (e ▸ g) hp)
      · exact hI.notPooled g hm
    · by_cases hn : n = (calls t).typ
      · subst hn; simp only [update_same]; exact List.nodup_cons.2 ⟨hI.notPooled hp, hI.nodup _⟩
      · simp only [update_ne _ _ hn]; exact hI.nodup n
    · rcases hpool h with ⟨rfl, rfl⟩ | h <;> rcases hpool h' with ⟨h1, h2⟩ | h'
      · exact h2.symm
      · exact absurd h' (hI.notPooled hp)
      · exact absurd (h1 ▸ h) (hI.notPooled hp)
      · exact hI.disjoint h h'
    · rcases hpool h with ⟨rfl, rfl⟩ | h
      · exact hI.heldMade hp
      · exact hI.pooledMade h
    · by_cases hu : u = t
      · subst hu
        have := hI.ok u
        unfold CallOk at this ⊢
        rw [ht] at this
        obtain ⟨v, h1, rfl⟩ := this
        simp only [update_same, Call.alone, h1]
      · exact callOk_frame hu (fun u hu => update_ne _ _ hu) (fun _ _ => rfl) (hI.ok u)
  | drop n p hp =>
    have hpool : ∀ {m q}, q ∈ update w.pool n ((w.pool n).erase p) m → q ∈ w.pool m := by
      intro m q h
      by_cases hm : m = n
      · subst hm; rw [update_same] at h; exact List.mem_of_mem_erase h
      · rw [update_ne _ _ hm] at h; exact h
    refine ⟨hI.held, fun h hm => hI.notPooled h (hpool hm), fun m => ?_,
      fun h h' => hI.disjoint (hpool h) (hpool h'), hI.heldMade, fun h => hI.pooledMade (hpool h),
      fun u => hI.ok u⟩
    by_cases hm : m = n
    · subst hm; simp only [update_same]; exact (hI.nodup _).erase _
    · simp only [update_ne _ _ hm]; exact hI.nodup m

theorem poolInv_reachable {w : World V R} (h : Reached parse calls w) : PoolInv parse calls w := by
  unfold Reached at h
  induction h with
  | refl => exact poolInv_init
  | step _ hs ih => exact poolInv_step ih hs

/-- **C37.** At every moment of every history: no parser is held by two running calls, and a
parser in a pool is held by none, is in one pool only, and is there once.  So a call that
returns its parser is the only one to do so. -/
theorem C37_one_owner {w : World V R} (h : Reached parse calls w) (p : Nat) :
    (∀ t t', (w.pc t).holds = some p → (w.pc t').holds = some p → t = t') ∧
    (∀ n, p ∈ w.pool n → (∀ t, (w.pc t).holds ≠ some p) ∧ (w.pool n).count p = 1 ∧
      ∀ m, p ∈ w.pool m → m = n) := by
  have hI := poolInv_reachable h
  refine ⟨fun t t' => hI.held, fun n hn => ⟨fun t ht => hI.notPooled ht hn, ?_, fun m hm => hI.disjoint hm hn⟩⟩
  have := List.nodup_iff_count.1 (hI.nodup n) p
  have := List.count_pos_iff.2 hn
  omega

/-- The parser is in no pool and held by no call. -/
def LostParser (w : World V R) (p : Nat) : Prop :=
  p < w.made ∧ (∀ n, p ∉ w.pool n) ∧ ∀ t, (w.pc t).holds ≠ some p

/-- **C37.** A parser is lost only where a call fails to parse (its own parser, and nothing
else changes hands) or where the pool itself drops it; any other step leaves none behind. -/
theorem C37_lost_how {w w' : World V R} (hr : Reached parse calls w)
    (h : PoolStep parse calls w w') {p} (hl : LostParser w' p) (hn : ¬ LostParser w p) :
    (∃ t, w.pc t = .got p ∧ parse (calls t).data = none ∧ w'.pc t = .done .parseError ∧
      w'.pool = w.pool ∧ ∀ u, u ≠ t → w'.pc u = w.pc u) ∨
    (∃ n, p ∈ w.pool n ∧ w'.pc = w.pc) := by
  have hI := poolInv_reachable hr
  obtain ⟨h1, h2, h3⟩ := hl
  have made : p < w.made → (∃ n, p ∈ w.pool n) ∨ ∃ t, (w.pc t).holds = some p := by
    intro hp
    refine Classical.byContradiction fun hno => hn ⟨hp, fun n hm => hno (.inl ⟨n, hm⟩), fun t ht => hno (.inr ⟨t, ht⟩)⟩
  cases h with
  | getNew t ht =>
    by_cases hp : p = w.made
    · subst hp; exact absurd (by simp [Pc.holds]) (h3 t)
    · rcases made (by simp at h1; omega) with ⟨n, hm⟩ | ⟨u, hu⟩
      · exact absurd hm (h2 n)
      · refine absurd ?_ (h3 u)
        have : u ≠ t := by rintro rfl; rw [ht] at hu; cases hu
        simp only [update_ne _ _ this]; exact hu
  | getPooled t q ht hq =>
    by_cases hp : p = q
    · subst hp; exact absurd (by simp [Pc.holds]) (h3 t)
    · rcases made h1 with ⟨n, hm⟩ | ⟨u, hu⟩
      · refine absurd ?_ (h2 n)
        by_cases hn' : n = (calls t).typ
        · subst hn'; simp only [update_same]; exact (List.mem_erase_of_ne hp).2 hm
        · simp only [update_ne _ _ hn']; exact hm
      · refine absurd ?_ (h3 u)
        have : u ≠ t := by rintro rfl; rw [ht] at hu; cases hu
        simp only [update_ne _ _ this]; exact hu
  | parseOk t q v ht hv =>
    rcases made h1 with ⟨n, hm⟩ | ⟨u, hu⟩
    · exact absurd hm (h2 n)
    · refine absurd ?_ (h3 u)
      by_cases hut : u = t
      · subst hut; rw [ht] at hu; simp only [update_same]; exact hu
      · simp only [update_ne _ _ hut]; exact hu
  | parseFail t q junk ht hv =>
    rcases made h1 with ⟨n, hm⟩ | ⟨u, hu⟩
    · exact absurd hm (h2 n)
    · by_cases hut : u = t
      · subst hut
        rw [ht] at hu
        simp only [Pc.holds, Option.some.injEq] at hu
        subst hu
        exact .inl ⟨u, ht, hv, by simp, rfl, fun u hu => update_ne _ _ hu⟩
      · refine absurd ?_ (h3 u)
        simp only [update_ne _ _ hut]; exact hu
  | look t q next v ht hv =>
    rcases made h1 with ⟨n, hm⟩ | ⟨u, hu⟩
    · exact absurd hm (h2 n)
    · refine absurd ?_ (h3 u)
      by_cases hut : u = t
      · subst hut; rw [ht] at hu; simp only [update_same]; exact hu
      · simp only [update_ne _ _ hut]; exact hu
  | fillReturns t q r ht =>
    rcases made h1 with ⟨n, hm⟩ | ⟨u, hu⟩
    · exact absurd hm (h2 n)
    · refine absurd ?_ (h3 u)
      by_cases hut : u = t
      · subst hut; rw [ht] at hu; simp only [update_same]; exact hu
      · simp only [update_ne _ _ hut]; exact hu
  | put t q r ht =>
    rcases made h1 with ⟨n, hm⟩ | ⟨u, hu⟩
    · refine absurd ?_ (h2 n)
      by_cases hn' : n = (calls t).typ
      · subst hn'; simp only [update_same]; exact List.mem_cons_of_mem _ hm
      · simp only [update_ne _ _ hn']; exact hm
    · by_cases hut : u = t
      · subst hut
        rw [ht] at hu
        simp only [Pc.holds, Option.some.injEq] at hu
        subst hu
        exact absurd (by simp) (h2 (calls u).typ)
      · refine absurd ?_ (h3 u)
        simp only [update_ne _ _ hut]; exact hu
  | drop n q hq =>
    rcases made h1 with ⟨m, hm⟩ | ⟨u, hu⟩
    · exact .inr ⟨m, hm, rfl⟩
    · exact absurd hu (h3 u)

/-- **C37.** A lost parser stays lost: it is never handed out again. -/
theorem C37_lost_for_good {w w' : World V R} (h : Run parse calls w w') {p} (hl : LostParser w p) :
    LostParser w' p := by
  induction h with
  | refl => exact hl
  | step _ hs ih =>
    obtain ⟨h1, h2, h3⟩ := ih
    rename_i u u' _
    have pcs : ∀ {t : Nat} {c : Pc V R}, c.holds ≠ some p → ∀ s, (update u.pc t c s).holds ≠ some p := by
      intro t c hc s
      by_cases hst : s = t
      · subst hst; rw [update_same]; exact hc
      · rw [update_ne _ _ hst]; exact h3 s
    have same : ∀ {t : Nat} {c : Pc V R}, c.holds = (u.pc t).holds → ∀ s, (update u.pc t c s).holds ≠ some p :=
      fun hc => pcs (hc ▸ h3 _)
    cases hs with
    | getNew t ht =>
      exact ⟨Nat.lt_succ_of_lt h1, h2, pcs (by simp [Pc.holds]; omega)⟩
    | getPooled t q ht hq =>
      refine ⟨h1, fun n => ?_, pcs (by simp only [Pc.holds, ne_eq, Option.some.injEq]; rintro rfl; exact h2 _ hq)⟩
      by_cases hn : n = (calls t).typ
      · subst hn; simp only [update_same]; exact fun hm => h2 _ (List.mem_of_mem_erase hm)
      · simp only [update_ne _ _ hn]; exact h2 n
    | parseOk t q v ht hv => exact ⟨h1, h2, same (by rw [ht]; rfl)⟩
    | parseFail t q junk ht hv => exact ⟨h1, h2, pcs (by simp [Pc.holds])⟩
    | look t q next v ht hv => exact ⟨h1, h2, same (by rw [ht]; rfl)⟩
    | fillReturns t q r ht => exact ⟨h1, h2, same (by rw [ht]; rfl)⟩
    | put t q r ht =>
      have hq : q ≠ p := by rintro rfl; exact h3 t (by rw [ht]; rfl)
      refine ⟨h1, fun n => ?_, pcs (by simp [Pc.holds])⟩
      by_cases hn : n = (calls t).typ
      · subst hn; simp only [update_same, List.mem_cons, not_or]; exact ⟨Ne.symm hq, h2 _⟩
      · simp only [update_ne _ _ hn]; exact h2 n
    | drop n q hq =>
      refine ⟨h1, fun m => ?_, h3⟩
      by_cases hm : m = n
      · subst hm; simp only [update_same]; exact fun hm => h2 _ (List.mem_of_mem_erase hm)
      · simp only [update_ne _ _ hm]; exact h2 m

/-- **C36.** Under every schedule, with any number of calls on any types: a call that has
returned has the result it has when it runs alone. -/
theorem C36_as_if_alone {w : World V R} (h : Reached parse calls w) {t r}
    (hd : w.pc t = .done r) : r = (calls t).alone parse := by
  have := (poolInv_reachable h).ok t
  unfold CallOk at this
  rw [hd] at this
  exact this

/-- **C36.** Results do not change afterwards, whatever the other calls do. -/
theorem C36_result_stays {w w' : World V R} (h : Run parse calls w w') {t r}
    (hd : w.pc t = .done r) : w'.pc t = .done r := by
  induction h with
  | refl => exact hd
  | step _ hs ih =>
    rename_i u u' _
    have ne : ∀ {s : Nat} {c : Pc V R}, u.pc s ≠ .done r → update u.pc s c t = .done r := by
      intro s c hne
      by_cases hst : t = s
      · subst hst; exact absurd ih hne
      · rw [update_ne _ _ hst]; exact ih
    cases hs with
    | getNew s h => exact ne (by rw [h]; simp)
    | getPooled s p h _ => exact ne (by rw [h]; simp)
    | parseOk s p v h _ => exact ne (by rw [h]; simp)
    | parseFail s p j h _ => exact ne (by rw [h]; simp)
    | look s p k v h _ => exact ne (by rw [h]; simp)
    | fillReturns s p r' h => exact ne (by rw [h]; simp)
    | put s p r' h => exact ne (by rw [h]; simp)
    | drop n p _ => exact ih

/-- **C36.** A document being decoded is not touched by other calls: while a call is inside
`FillFromJSON`, its parser holds the document it parsed. -/
theorem C36_document_stays {w : World V R} (h : Reached parse calls w) {t p body}
    (hf : w.pc t = .filling p body) : w.mem p = parse (calls t).data ∧ w.mem p ≠ none := by
  have := (poolInv_reachable h).ok t
  unfold CallOk at this
  rw [hf] at this
  obtain ⟨v, h1, h2, _⟩ := this
  rw [h1, h2]
  exact ⟨rfl, by simp⟩

/-- **C36.** No call ever waits for another: whenever a call has not returned, it can take its
next step. -/
theorem C36_never_blocked {w : World V R} (h : Reached parse calls w) {t}
    (hd : ∀ r, w.pc t ≠ .done r) : ∃ w', PoolStep parse calls w w' ∧ ∀ u, u ≠ t → w'.pc u = w.pc u := by
  have hok := (poolInv_reachable h).ok t
  unfold CallOk at hok
  cases hp : w.pc t with
  | start => exact ⟨_, .getNew t hp, fun u hu => update_ne _ _ hu⟩
  | got p =>
    cases hv : parse (calls t).data with
    | none => exact ⟨_, .parseFail t p none hp hv, fun u hu => update_ne _ _ hu⟩
    | some v => exact ⟨_, .parseOk t p v hp hv, fun u hu => update_ne _ _ hu⟩
  | filling p body =>
    rw [hp] at hok
    obtain ⟨v, _, hm, _⟩ := hok
    cases body with
    | ret r => exact ⟨_, .fillReturns t p r hp, fun u hu => update_ne _ _ hu⟩
    | read next => exact ⟨_, .look t p next v hp hm, fun u hu => update_ne _ _ hu⟩
  | filled p r => exact ⟨_, .put t p r hp, fun u hu => update_ne _ _ hu⟩
  | done r => exact absurd hp (hd r)

end

/-! ## With the generated methods -/

section
variable [Ext]

/-- `fill` is the `FillFromJSON` of type `n` on a receiver holding `s`: alone it ends as
`FillFromJSON` does. -/
def ReadsLikeFill (Γ : Env) (n : Nat) (s : GoVal) (fill : Reading JV (Option Err × GoVal)) : Prop :=
  ∀ v, Fills Γ n v s (fill.alone v).1 (fill.alone v).2

/-- **C36.** Any number of concurrent calls `x.UnmarshalJSON(data)`, of any generated types:
whatever the schedule, every call that has returned has the error and the receiver that
`UnmarshalJSON` has when nothing else runs. -/
theorem C36_unmarshal {Γ : Env} {calls : Nat → Call JV (Option Err × GoVal)}
    {recv : Nat → GoVal} {w : World JV (Option Err × GoVal)}
    (hf : ∀ t, ReadsLikeFill Γ (calls t).typ (recv t) (calls t).fill)
    (h : Reached parseBytes calls w) {t e s'}
    (hd : w.pc t = .done (.finished (e, s'))) :
    Unmarshals Γ (calls t).typ (calls t).data (recv t) e s' := by
  have := C36_as_if_alone h hd
  rw [Call.alone] at this
  split at this
  · cases this
  · rename_i v hv
    simp only [CallResult.finished.injEq] at this
    obtain ⟨k, hk⟩ := hf t v
    rw [← this] at hk
    exact ⟨k, by rw [unmarshalJSON, hv]; exact hk⟩

omit [Ext] in
/-- **C36.** A call ends with the error of the parser exactly when its own data is not JSON. -/
theorem C36_parse_error {calls : Nat → Call JV (Option Err × GoVal)}
    {w : World JV (Option Err × GoVal)} (h : Reached parseBytes calls w) {t r}
    (hd : w.pc t = .done r) : r = .parseError ↔ NotJSON (calls t).data := by
  have := C36_as_if_alone h hd
  rw [Call.alone] at this
  rw [this, notJSON_iff]
  split
  · rename_i hv; simp [hv]
  · rename_i v hv; simp [hv]

end

/-- Every type of a package without fixed-size byte arrays has such a reading, for every
receiver of the type: `C36_unmarshal` speaks about all of them. -/
theorem readsLikeFill_exists [Ext] {Γ : Env} {X : Nat → GoVal → Prop} {S : Nat → Prop}
    (hP : Package Γ X S) (hF : NoFixedBytes Γ S) {n : Nat} (hn : S n) {s : GoVal}
    (hs : HasType Γ X (.named n) s) : ∃ fill, ReadsLikeFill Γ n s fill := by
  have h := fun v => C20_decode_returns_partial hP hF hn v hs
  refine ⟨.read fun v => .ret ((h v).choose, (h v).choose_spec.choose), fun v => ?_⟩
  exact (h v).choose_spec.choose_spec.1

namespace Examples

section
open Sample
attribute [local instance] Sample.ext

/-- The hypotheses of `C36_unmarshal` are met by struct { L []int8 `json:"l"` } -/
example : ∃ fill, ReadsLikeFill Γ 30 (.struct [.nil]) fill :=
  readsLikeFill_exists plain_package plain_noFixedBytes (by simp [PlainNames, plainNames])
    (typed_struct rfl (.cons (.nilSlice _) .nil))

end

/-- A call that fails to parse loses its parser: it is in no pool, and no call has it. -/
theorem C37_parser_lost : ∃ w, Reached (fun _ => (none : Option Nat)) (fun _ => ⟨7, [], .ret 0⟩) w ∧
    w.pc 0 = (.done .parseError : Pc Nat Nat) ∧ LostParser w 0 := by
  refine ⟨_, .step (.step .refl (.getNew 0 rfl)) (.parseFail 0 0 none rfl rfl), rfl, ?_, ?_, ?_⟩
  · simp [World.init]
  · simp [World.init]
  · intro t
    by_cases h : t = 0
    · subst h; simp [Pc.holds]
    · simp [update, h, World.init, Pc.holds]

/-- Two calls on the same type, the second with the parser of the first; each looks at its
document twice. -/
def twoCalls : Nat → Call Nat (Nat × Nat) := fun t =>
  ⟨7, if t = 0 then str "a" else str "bb", .read fun x => .read fun y => .ret (x, y)⟩

def parseLength (s : Str) : Option Nat := if s = [] then none else some s.length

/-- A schedule in which the second call starts before the first has returned, and the first
parser is used again by a third call. -/
theorem C36_schedule : ∃ w, Reached parseLength twoCalls w ∧
    w.pc 0 = .done (.finished (1, 1)) ∧ w.pc 1 = .done (.finished (2, 2)) ∧
    w.pc 2 = .filling 0 (.ret (2, 2)) := by
  refine ⟨_, .step (.step (.step (.step (.step (.step (.step (.step (.step (.step (.step (.step
    (.step (.step (.step (.step .refl
    (.getNew 0 rfl)) (.parseOk 0 0 1 rfl rfl)) (.look 0 0 _ 1 rfl rfl))
    (.getNew 1 rfl)) (.parseOk 1 1 2 rfl rfl)) (.look 0 0 _ 1 rfl rfl))
    (.look 1 1 _ 2 rfl rfl)) (.fillReturns 0 0 (1, 1) rfl)) (.put 0 0 (1, 1) rfl))
    (.getPooled 2 0 rfl (by simp [update, World.init, twoCalls]))) (.parseOk 2 0 2 rfl rfl))
    (.look 2 0 _ 2 rfl rfl)) (.look 1 1 _ 2 rfl rfl)) (.look 2 0 _ 2 rfl rfl))
    (.fillReturns 1 1 (2, 2) rfl)) (.put 1 1 (2, 2) rfl), rfl, rfl, rfl⟩

end Examples

end VJ
