import Verif.Proof.Growth
import Verif.Spec.EncodedSize

/-!
# Encoded values are not much larger than the values
-/

namespace VJ
set_option linter.unusedSectionVars false
set_option linter.unusedSimpArgs false

/-! ## texts -/

theorem natStrAux_length : ∀ (fuel n k : Nat), 1 ≤ k → n < 10 ^ k → (natStrAux fuel n).length ≤ k
  | 0, _, _, _, _ => by simp [natStrAux]
  | fuel + 1, n, k, hk, hn => by
    simp only [natStrAux]
    split
    · simpa using hk
    · cases k with
      | zero => omega
      | succ k =>
        cases k with
        | zero => simp at hn; omega
        | succ k =>
          have := natStrAux_length fuel (n / 10) (k + 1) (by omega) (by rw [Nat.pow_succ] at hn; omega)
          simp only [List.length_append, List.length_singleton]
          omega

theorem intStr_length {i : Int} (h1 : -2 ^ 63 ≤ i) (h2 : i < 2 ^ 64) : (intStr i).length ≤ 21 := by
  cases i with
  | ofNat n =>
    have : (natStr n).length ≤ 20 := natStrAux_length _ _ _ (by omega) (by simp at h2; omega)
    simp only [intStr]; omega
  | negSucc n =>
    have : (natStr (n + 1)).length ≤ 20 := natStrAux_length _ _ _ (by omega) (by simp at h1; omega)
    simp only [intStr, List.length_cons]; omega

theorem escChar_length (c : Char) : (escChar c).length ≤ 6 := by
  unfold escChar
  repeat' split
  all_goals simp

theorem escBody_length : ∀ s : Str, (escBody s).length ≤ 6 * s.length
  | [] => by simp [escBody]
  | c :: s => by
    have := escBody_length s
    have := escChar_length c
    simp only [escBody, List.length_append, List.length_cons]
    omega

theorem jsonStr_length (s : Str) : (jsonStr s).length ≤ 6 * s.length + 2 := by
  have := escBody_length s
  simp only [jsonStr, List.length_append, List.length_cons, List.length_nil]
  omega

theorem b64Encode_length : ∀ b : List UInt8, (b64Encode b).length ≤ 4 * b.length := by
  intro b
  fun_induction b64Encode b <;> simp_all +zetaDelta <;> omega

theorem hexText_length : ∀ b : List UInt8, (hexBytes b).length = 2 * b.length
  | [] => by simp [hexBytes]
  | x :: b => by have := hexText_length b; simp_all [hexBytes, hexByte]; omega

theorem uuidText_length (b : List UInt8) : (uuidText b).length ≤ 36 := by
  simp only [uuidText, List.length_append, List.length_cons, hexText_length, List.length_take, List.length_drop]
  omega

@[simp] theorem raw_length (w : W) (s : Str) : (w.raw s).buf.length = w.buf.length + s.length := by simp [W.raw]

theorem string_length (w : W) (s : Str) : (w.string s).buf.length ≤ w.buf.length + (6 * s.length + 2) := by
  have := jsonStr_length s
  simp only [W.string, raw_length]; omega

theorem keyText_length (name : Str) : (keyText name).length = name.length + 3 := by simp [keyText]

theorem boolText_length (b : Bool) : (boolText b).length ≤ 5 := by cases b <;> decide

theorem null_length : (str "null").length = 4 := rfl

section
variable [Ext]

theorem GoVal.trim_pos (v : GoVal) : 1 ≤ v.trim.extent := v.trim.extent_pos

/-- The calls of a type write at most `K` characters for each unit of the value, one to spare. -/
structure Terse (K B : Nat) (m : Methods) : Prop where
  value : ∀ v w e w', Short B v → m.marshalTo (some v) w = .ok (e, w') → w'.buf.length + 1 ≤ w.buf.length + K * v.trim.extent
  null : ∀ w e w', m.marshalTo none w = .ok (e, w') → w'.buf.length + 1 ≤ w.buf.length + K

theorem writeElems_length {K B : Nat} {f : Nat → GoVal → W → Out (Option EErr × W)}
    (hf : ∀ i v w e w', Short B v → f i v w = .ok (e, w') → w'.buf.length + 1 ≤ w.buf.length + K * v.trim.extent) :
    ∀ (es : List GoVal) (i : Nat) (sep : Bool) (w : W) (e : Option EErr) (w' : W), ShortAll B es →
      writeElems f i sep es w = .ok (e, w') → w'.buf.length ≤ w.buf.length + K * extents (trimAll es)
  | [], i, sep, w, e, w', _, h => by simp only [writeElems] at h; cases h; omega
  | v :: es, i, sep, w, e, w', hs, h => by
    simp only [writeElems, Out.bind_eq_ok] at h
    obtain ⟨⟨e1, w1⟩, h1, h2⟩ := h
    have b1 := hf _ _ _ _ _ hs.1 h1
    have bc : (if sep then w.raw [','] else w).buf.length ≤ w.buf.length + 1 := by cases sep <;> simp
    simp only [trimAll, extents, Nat.mul_add]
    cases e1 with
    | some e1 => cases h2; dsimp only; omega
    | none =>
      dsimp only at h2
      have := writeElems_length hf es _ _ _ _ _ hs.2 h2
      omega

theorem writeMembers_length {K B : Nat} (hK : 10 ≤ K) {f : Str → GoVal → W → Out (Option EErr × W)}
    (hf : ∀ k v w e w', Short B v → f k v w = .ok (e, w') → w'.buf.length + 1 ≤ w.buf.length + K * v.trim.extent) :
    ∀ (kvs : List (Str × GoVal)) (sep : Bool) (w : W) (e : Option EErr) (w' : W), ShortMembers B kvs →
      writeMembers f sep kvs w = .ok (e, w') → w'.buf.length ≤ w.buf.length + K * entryExtents (trimMembers kvs)
  | [], sep, w, e, w', _, h => by simp only [writeMembers] at h; cases h; omega
  | (k, v) :: kvs, sep, w, e, w', hs, h => by
    simp only [writeMembers, Out.bind_eq_ok] at h
    obtain ⟨⟨e1, w1⟩, h1, h2⟩ := h
    have b1 := hf _ _ _ _ _ hs.1 h1
    have bc : (if sep then w.raw [','] else w).buf.length ≤ w.buf.length + 1 := by cases sep <;> simp
    have bs := string_length (if sep then w.raw [','] else w) k
    have bk : 10 * k.length ≤ K * k.length := Nat.mul_le_mul_right _ hK
    simp only [raw_length, List.length_singleton] at b1
    simp only [trimMembers, entryExtents, Nat.mul_add, Nat.mul_one]
    cases e1 with
    | some e1 => cases h2; dsimp only; omega
    | none =>
      dsimp only at h2
      have := writeMembers_length hK hf kvs _ _ _ _ hs.2 h2
      omega

/-- room for everything whose text does not depend on the types -/
def Roomy (K B : Nat) : Prop := 40 * (B + 1) + 30 ≤ K

theorem timeText_room {K B : Nat} (hR : Roomy K B) {t : Time} (hs : Short B (.time t)) :
    (timeQuoted (str "2006-01-02T15:04:05.999999999Z07:00") t).length + 1 ≤ K := by
  simp only [Short] at hs
  have := hs.1 (str "2006-01-02T15:04:05.999999999Z07:00")
  have hl : (str "2006-01-02T15:04:05.999999999Z07:00").length = 35 := rfl
  rw [hl] at this
  simp only [timeQuoted, List.length_cons, List.length_append, List.length_nil, Roomy] at *
  omega

theorem runVExt_length {K B : Nat} (hR : Roomy K B) {M : Nat → Methods} (hM : ∀ n, Terse K B (M n)) (label : ECtx) :
    ∀ (x : VExt) (v : GoVal) (w : W) (e : Option EErr) (w' : W), Short B v → runVExt M label x v w = .ok (e, w') →
      w'.buf.length + 1 ≤ w.buf.length + K * v.trim.extent := by
  intro x
  induction x with
  | int =>
    intro v w e w' hs h
    cases v <;> simp only [runVExt] at h <;> cases h
    simp only [Short] at hs
    have := intStr_length hs.1 hs.2
    simp only [raw_length, GoVal.trim, GoVal.extent, Roomy] at *; omega
  | float =>
    intro v w e w' hs h
    cases v <;> simp only [runVExt] at h <;> cases h
    simp only [Short] at hs
    simp only [raw_length, GoVal.trim, GoVal.extent, Roomy] at *; omega
  | bool =>
    intro v w e w' hs h
    cases v <;> simp only [runVExt] at h <;> cases h
    rename_i b
    have := boolText_length b
    simp only [raw_length, GoVal.trim, GoVal.extent, Roomy] at *; omega
  | str =>
    intro v w e w' hs h
    cases v <;> simp only [runVExt] at h <;> cases h
    rename_i s
    have := string_length w s
    have bk : 10 * s.length ≤ K * s.length := Nat.mul_le_mul_right _ (by simp only [Roomy] at hR; omega)
    simp only [GoVal.trim, GoVal.extent, Roomy, Nat.mul_add] at *; omega
  | time =>
    intro v w e w' hs h
    cases v <;> simp only [runVExt] at h <;> cases h
    have := timeText_room hR hs
    simp only [raw_length, GoVal.trim, GoVal.extent] at *; omega
  | call n =>
    intro v w e w' hs h
    simp only [runVExt, Out.bind_eq_ok] at h
    obtain ⟨⟨e1, w1⟩, h1, h2⟩ := h
    cases h2
    exact (hM n).value _ _ _ _ hs h1
  | callPtr n =>
    intro v w e w' hs h
    cases v <;> simp only [runVExt] at h <;> try cases h
    · simp only [Out.bind_eq_ok] at h
      obtain ⟨⟨e1, w1⟩, h1, h2⟩ := h
      cases h2
      have := (hM n).null _ _ _ h1
      simp only [GoVal.trim, GoVal.extent]; omega
    · simp only [Out.bind_eq_ok] at h
      obtain ⟨⟨e1, w1⟩, h1, h2⟩ := h
      cases h2
      simp only [Short] at hs
      have := (hM n).value _ _ _ _ hs h1
      simp only [GoVal.trim, GoVal.extent, Nat.mul_add]; omega
  | star x ih =>
    intro v w e w' hs h
    cases v <;> simp only [runVExt] at h <;> try cases h
    · simp only [raw_length, null_length, GoVal.trim, GoVal.extent, Roomy] at *; omega
    · simp only [Short] at hs
      have := ih _ _ _ _ hs h
      simp only [GoVal.trim, GoVal.extent, Nat.mul_add]; omega
  | arr x ih =>
    intro v w e w' hs h
    cases v <;> simp only [runVExt] at h <;> try cases h
    · have hl : (str "[]").length = 2 := rfl
      simp only [raw_length, hl, GoVal.trim, GoVal.extent, Roomy] at *; omega
    all_goals
      simp only [Out.bind_eq_ok] at h
      obtain ⟨⟨e1, w1⟩, h1, h2⟩ := h
      simp only [Short] at hs
      have hw := writeElems_length (fun _ v w e w' => ih v w e w') _ _ _ _ _ _ hs h1
      simp only [raw_length, List.length_singleton] at hw
      simp only [GoVal.trim, GoVal.extent, extents, Nat.mul_add, Roomy] at *
      cases e1 with
      | some e1 => cases h2; omega
      | none => cases h2; simp only [raw_length, List.length_singleton]; omega

theorem writeList_length {K B : Nat} (hR : Roomy K B) {M : Nat → Methods} (hM : ∀ n, Terse K B (M n)) {name : Str} {x : VExt} {es : List GoVal} {w w' : W}
    {e : Option EErr} (hs : ShortAll B es) (h : writeList M name x es w = .ok (e, w')) :
    w'.buf.length ≤ w.buf.length + 2 + K * extents (trimAll es) := by
  simp only [writeList, Out.bind_eq_ok] at h
  obtain ⟨⟨e1, w1⟩, h1, h2⟩ := h
  have hw := writeElems_length (fun i v w e w' => runVExt_length hR hM (itemLabel name i) x v w e w') _ _ _ _ _ _ hs h1
  simp only [raw_length, List.length_singleton] at hw
  cases e1 with
  | some e1 => cases h2; dsimp only; omega
  | none => cases h2; simp only [raw_length, List.length_singleton]; omega

theorem writeMap_length {K B : Nat} (hR : Roomy K B) {M : Nat → Methods} (hM : ∀ n, Terse K B (M n)) {name : Str} {x : VExt}
    {kvs : List (Str × GoVal)} {w w' : W} {e : Option EErr} (hs : ShortMembers B kvs) (h : writeMap M name x kvs w = .ok (e, w')) :
    w'.buf.length ≤ w.buf.length + 2 + K * entryExtents (trimMembers kvs) := by
  simp only [writeMap, Out.bind_eq_ok] at h
  obtain ⟨⟨e1, w1⟩, h1, h2⟩ := h
  have hw := writeMembers_length (by simp only [Roomy] at hR; omega)
    (fun k v w e w' => runVExt_length hR hM (memberLabel name k) x v w e w') _ _ _ _ _ hs h1
  simp only [raw_length, List.length_singleton] at hw
  cases e1 with
  | some e1 => cases h2; dsimp only; omega
  | none => cases h2; simp only [raw_length, List.length_singleton]; omega

theorem deref_short {B : Nat} : ∀ {d : Nat} {v u : GoVal}, Short B v → deref d v = .ok u → Short B u ∧ u.trim.extent ≤ v.trim.extent
  | 0, v, u, hs, h => by simp only [deref] at h; cases h; exact ⟨hs, Nat.le_refl _⟩
  | d + 1, v, u, hs, h => by
    cases v <;> simp only [deref] at h <;> try cases h
    simp only [Short] at hs
    obtain ⟨a, b⟩ := deref_short hs h
    refine ⟨a, ?_⟩
    simp only [GoVal.trim, GoVal.extent]; omega

/-- What a field writes besides its value: comma, key, and texts that depend on the tags. -/
def Blk.cost (B : Nat) (b : Blk) : Nat :=
  b.name.length + 10 + (match b.body with | .time layout _ => B * (layout.length + 1) | _ => 0) +
    (match b.ifZero with | some (t, _) => t.length | none => 0)

def blkCosts (B : Nat) : List Blk → Nat
  | [] => 0
  | b :: bs => b.cost B + blkCosts B bs

theorem unpack_length (r : Except EErr Str) : (unpackObject r).1.length ≤ match r with | .ok s => s.length | .error _ => 0 := by
  unfold unpackObject
  split
  · simp
  · split
    · simp
    · split <;> simp; omega

theorem rawData_length (w : W) (data : Str) (e : Option EErr) : (w.rawData data e).buf.length ≤ w.buf.length + data.length + 4 := by
  unfold W.rawData
  split
  · omega
  · split
    · dsimp only; omega
    · split <;> simp [null_length]

theorem runBody_length {K B : Nat} (hR : Roomy K B) {M : Nat → Methods} (hM : ∀ n, Terse K B (M n)) {b : Blk} {v : GoVal} {w w' : W}
    {e : Option EErr} (hs : Short B v) (h : runBody M b.name b.body v w = .ok (e, w')) :
    w'.buf.length + 1 ≤ w.buf.length + b.cost B + K * v.trim.extent := by
  have hp := v.trim_pos
  have hKv : K ≤ K * v.trim.extent := Nat.le_mul_of_pos_right K hp
  cases hb : b.body with
  | prim pw d =>
    rw [hb] at h
    simp only [runBody, Out.bind_eq_ok] at h
    obtain ⟨u, h1, h2⟩ := h
    obtain ⟨hu, hl⟩ := deref_short hs h1
    have hKu := Nat.mul_le_mul_left K hl
    cases pw <;> cases u <;> simp only at h2 <;> cases h2
    · simp only [Short] at hu
      have := intStr_length hu.1 hu.2
      simp only [raw_length, keyText_length, Blk.cost, hb, Roomy] at *; omega
    · simp only [Short] at hu
      simp only [raw_length, keyText_length, Blk.cost, hb, Roomy] at *; omega
    · rename_i s
      have := string_length (w.raw (keyText b.name)) s
      have bk : 10 * s.length ≤ K * s.length := Nat.mul_le_mul_right _ (by simp only [Roomy] at hR; omega)
      simp only [raw_length, keyText_length, Blk.cost, hb, Roomy, GoVal.trim, GoVal.extent, Nat.mul_add] at *; omega
  | boolTrue =>
    rw [hb] at h
    simp only [runBody] at h
    cases h
    have hl : (str "true").length = 4 := rfl
    simp only [raw_length, List.length_append, hl, keyText_length, Blk.cost, hb, Roomy] at *; omega
  | refBool d =>
    rw [hb] at h
    simp only [runBody, Out.bind_eq_ok] at h
    obtain ⟨u, h1, h2⟩ := h
    cases u <;> simp only at h2 <;> cases h2
    rename_i c
    have := boolText_length c
    simp only [raw_length, List.length_append, keyText_length, Blk.cost, hb, Roomy] at *; omega
  | time layout d =>
    rw [hb] at h
    simp only [runBody, Out.bind_eq_ok] at h
    obtain ⟨u, h1, h2⟩ := h
    obtain ⟨hu, hl⟩ := deref_short hs h1
    cases u <;> simp only at h2 <;> cases h2
    simp only [Short] at hu
    have := hu.1 layout
    simp only [raw_length, timeQuoted, List.length_cons, List.length_append, List.length_nil, keyText_length, Blk.cost, hb, Roomy] at *; omega
  | uuid star =>
    rw [hb] at h
    simp only [runBody, Out.bind_eq_ok] at h
    obtain ⟨u, h1, h2⟩ := h
    cases u <;> simp only at h2 <;> cases h2
    rename_i c
    have := uuidText_length c
    simp only [raw_length, List.length_cons, List.length_append, List.length_nil, keyText_length, Blk.cost, hb, Roomy] at *; omega
  | struct n star =>
    rw [hb] at h
    simp only [runBody, Out.bind_eq_ok] at h
    obtain ⟨u, h1, ⟨e1, w1⟩, h2, h3⟩ := h
    obtain ⟨hu, hl⟩ := deref_short hs h1
    have hKu := Nat.mul_le_mul_left K hl
    have := (hM n).value _ _ _ _ hu h2
    cases h3
    simp only [raw_length, keyText_length, Blk.cost, hb] at *; omega
  | inline n =>
    rw [hb] at h
    simp only [runBody, marshalJSON, Out.bind_eq_ok] at h
    obtain ⟨r, ⟨⟨e1, w1⟩, h1, h2⟩, h3⟩ := h
    have hv := (hM n).value _ _ _ _ hs h1
    have hr := unpack_length r
    have hw := rawData_length w (unpackObject r).1 (unpackObject r).2
    have hz : (unpackObject r).1.length + 1 ≤ K * v.trim.extent := by
      have h0 : (W.empty).buf.length = 0 := rfl
      cases e1 with
      | some e1 =>
        cases h2
        simp only at hr
        simp only [Roomy] at hR; omega
      | none =>
        simp only [W.build] at h2
        split at h2
        · cases h2
          simp only at hr
          simp only [Roomy] at hR; omega
        · cases h2
          simp only at hr
          omega
    cases h3
    simp only [Blk.cost, hb]
    omega
  | map x =>
    rw [hb] at h
    simp only [runBody] at h
    cases v <;> simp only at h <;> try cases h
    simp only [Short] at hs
    have := writeMap_length hR hM hs h
    simp only [raw_length, keyText_length, Blk.cost, hb, GoVal.trim, GoVal.extent, Nat.mul_add, Roomy] at *; omega
  | arr x =>
    rw [hb] at h
    simp only [runBody] at h
    cases v <;> simp only at h <;> try cases h
    all_goals
      simp only [Short] at hs
      have := writeList_length hR hM hs h
      simp only [raw_length, keyText_length, Blk.cost, hb, GoVal.trim, GoVal.extent, extents, Nat.mul_add, Roomy] at *; omega
  | bytes =>
    rw [hb] at h
    simp only [runBody] at h
    cases v <;> simp only at h <;> try cases h
    all_goals
      rename_i c
      have h1 := string_length (w.raw (keyText b.name)) (b64Encode c)
      have h2 := b64Encode_length c
      have bk : 30 * c.length ≤ K * c.length := Nat.mul_le_mul_right _ (by simp only [Roomy] at hR; omega)
      simp only [raw_length, keyText_length, Blk.cost, hb, GoVal.trim, GoVal.extent, Nat.mul_add, Roomy] at *; omega

theorem putComma_length (wc : Bool) (w : W) : (putComma wc w).buf.length ≤ w.buf.length + 1 := by
  cases wc <;> simp [putComma]

theorem runBlk_length {K B : Nat} (hR : Roomy K B) {M : Nat → Methods} (hM : ∀ n, Terse K B (M n)) {b : Blk} {v : GoVal} {wc wc' : Bool} {w w' : W}
    {e : Option EErr} (hs : Short B v) (h : runBlk M b v wc w = .ok (e, wc', w')) :
    w'.buf.length ≤ w.buf.length + b.cost B + K * v.trim.extent := by
  have hc := putComma_length wc w
  have body : ∀ {e w'}, runBody M b.name b.body v (putComma wc w) = .ok (e, w') → w'.buf.length ≤ w.buf.length + b.cost B + K * v.trim.extent := by
    intro e w' hb
    have := runBody_length hR hM hs hb
    omega
  simp only [runBlk] at h
  split at h
  · simp only [Out.bind_eq_ok] at h
    obtain ⟨⟨e1, w1⟩, h1, h2⟩ := h
    cases h2
    exact body h1
  · simp only [Out.bind_eq_ok] at h
    obtain ⟨nz, -, h⟩ := h
    split at h
    · simp only [Out.bind_eq_ok] at h
      obtain ⟨⟨e1, w1⟩, h1, h2⟩ := h
      cases h2
      exact body h1
    · split at h
      · rename_i t sets hz
        cases h
        simp only [raw_length, List.length_append, keyText_length, Blk.cost, hz]; omega
      · cases h; omega

theorem runBlks_length {K B : Nat} (hR : Roomy K B) {M : Nat → Methods} (hM : ∀ n, Terse K B (M n)) :
    ∀ {bs : List Blk} {vs : List GoVal} {wc : Bool} {w w' : W} {e : Option EErr}, ShortAll B vs → runBlks M bs vs wc w = .ok (e, w') →
      w'.buf.length ≤ w.buf.length + blkCosts B bs + K * extents (trimAll vs)
  | [], [], wc, w, w', e, _, h => by simp only [runBlks] at h; cases h; omega
  | [], _ :: _, wc, w, w', e, _, h => by simp only [runBlks] at h; cases h
  | _ :: _, [], wc, w, w', e, _, h => by simp only [runBlks] at h; cases h
  | b :: bs, v :: vs, wc, w, w', e, hs, h => by
    simp only [runBlks, Out.bind_eq_ok] at h
    obtain ⟨⟨e1, wc1, w1⟩, h1, h2⟩ := h
    simp only [ShortAll] at hs
    have hb := runBlk_length hR hM hs.1 h1
    simp only [blkCosts, trimAll, extents, Nat.mul_add]
    cases e1 with
    | some e1 => cases h2; dsimp only; omega
    | none =>
      dsimp only at h2
      have := runBlks_length hR hM hs.2 h2
      omega

def MarshalIR.cost (B : Nat) : MarshalIR → Nat
  | .struct bs => blkCosts B bs
  | _ => 0

/-- The size of a receiver; a nil receiver counts as one unit. -/
def recvExtent : Option GoVal → Nat
  | some v => v.trim.extent
  | none => 1

theorem runMarshal_length {K B : Nat} (hR : Roomy K B) {M : Nat → Methods} (hM : ∀ n, Terse K B (M n)) {ir : MarshalIR} (hir : ir.cost B + 10 ≤ K)
    {recv : Option GoVal} {w w' : W} {e : Option EErr} (hs : ∀ v, recv = some v → Short B v) (h : runMarshal M ir recv w = .ok (e, w')) :
    w'.buf.length + 1 ≤ w.buf.length + K * recvExtent recv := by
  have hp : 1 ≤ recvExtent recv := by
    cases recv with
    | none => exact Nat.le_refl 1
    | some v => exact v.trim_pos
  have hKv : K ≤ K * recvExtent recv := Nat.le_mul_of_pos_right K hp
  have small : ∀ s : Str, s.length + 1 ≤ K → w' = w.raw s →
      w'.buf.length + 1 ≤ w.buf.length + K * recvExtent recv := by
    intro s hl hw
    rw [hw, raw_length]
    omega
  have null : w' = w.raw (str "null") → w'.buf.length + 1 ≤ w.buf.length + K * recvExtent recv :=
    small _ (by rw [null_length]; omega)
  cases ir with
  | struct bs =>
    cases bs with
    | nil =>
      simp only [runMarshal] at h
      cases h
      exact small _ (by have hl : (str "{}").length = 2 := rfl; rw [hl]; omega) rfl
    | cons b bs =>
      simp only [runMarshal] at h
      split at h
      · cases h; exact null rfl
      · rename_i vs
        simp only [Out.bind_eq_ok] at h
        obtain ⟨⟨e1, w1⟩, h1, h2⟩ := h
        have hv := hs _ rfl
        simp only [Short] at hv
        have hw := runBlks_length hR hM hv h1
        simp only [raw_length, List.length_singleton, MarshalIR.cost, GoVal.trim, GoVal.extent, recvExtent, Nat.mul_add] at *
        cases e1 with
        | some e1 => cases h2; omega
        | none => cases h2; simp only [raw_length, List.length_singleton]; omega
      · cases h
  | map x =>
    simp only [runMarshal] at h
    split at h
    · cases h; exact null rfl
    · cases h; exact null rfl
    · simp only [Out.bind_eq_ok] at h
      obtain ⟨⟨e1, w1⟩, h1, h2⟩ := h
      have hv := hs _ rfl
      simp only [Short] at hv
      have hw := writeMap_length hR hM hv h1
      simp only [GoVal.trim, GoVal.extent, recvExtent, Nat.mul_add, Roomy] at *
      cases e1 <;> cases h2 <;> omega
    · cases h
  | list fixed x =>
    simp only [runMarshal] at h
    split at h
    · cases h; exact null rfl
    · split at h <;> cases h; exact null rfl
    iterate 2
      simp only [Out.bind_eq_ok] at h
      obtain ⟨⟨e1, w1⟩, h1, h2⟩ := h
      have hv := hs _ rfl
      simp only [Short] at hv
      have hw := writeList_length hR hM hv h1
      simp only [GoVal.trim, GoVal.extent, recvExtent, extents, Nat.mul_add, Roomy] at *
      cases e1 <;> cases h2 <;> omega
    cases h
  | bytes fixed =>
    have bs : ∀ c : List UInt8, (w.string (b64Encode c)).buf.length + 1 ≤ w.buf.length + K * (1 + c.length) := by
      intro c
      have h1 := string_length w (b64Encode c)
      have h2 := b64Encode_length c
      have bk : 30 * c.length ≤ K * c.length := Nat.mul_le_mul_right _ (by simp only [Roomy] at hR; omega)
      simp only [Nat.mul_add, Roomy] at *; omega
    simp only [runMarshal] at h
    split at h
    · cases h; exact null rfl
    · split at h <;> cases h; exact null rfl
    · cases h; simpa only [GoVal.trim, GoVal.extent, recvExtent] using bs _
    · cases h; simpa only [GoVal.trim, GoVal.extent, recvExtent] using bs _
    · cases h
  | prim p =>
    simp only [runMarshal] at h
    split at h
    · cases h; exact null rfl
    · rename_i v
      have hv := hs _ rfl
      split at h
      · cases h; simp only [Short] at hv; exact small _ (by simp only [Roomy] at hR; omega) rfl
      · cases h; simp only [Short] at hv; exact small _ (by simp only [Roomy] at hR; omega) rfl
      · rename_i b
        cases h; have := boolText_length b; exact small _ (by simp only [Roomy] at hR; omega) rfl
      · rename_i s
        cases h
        have := string_length w s
        have bk : 10 * s.length ≤ K * s.length := Nat.mul_le_mul_right _ (by simp only [Roomy] at hR; omega)
        simp only [GoVal.trim, GoVal.extent, recvExtent, Nat.mul_add, Roomy] at *; omega
      · cases h; simp only [Short] at hv
        have := intStr_length hv.1 hv.2
        exact small _ (by simp only [Roomy] at hR; omega) rfl
      · cases h
  | time =>
    simp only [runMarshal] at h
    split at h
    · cases h; exact null rfl
    · have hv := hs _ rfl
      simp only [Short] at hv
      split at h
      · rename_i s ht
        cases h
        have := hv.2 s ht
        exact small _ (by simp only [List.length_cons, List.length_append, List.length_nil, Roomy] at *; omega) rfl
      · cases h; omega
    · cases h
  | uuid =>
    simp only [runMarshal] at h
    split at h
    · cases h; exact null rfl
    · rename_i b
      cases h
      have := uuidText_length b
      exact small _ (by simp only [List.length_cons, List.length_append, List.length_nil, Roomy] at *; omega) rfl
    · cases h
  | call n =>
    simp only [runMarshal] at h
    split at h
    · cases h; exact null rfl
    · exact (hM n).value _ _ _ _ (hs _ rfl) h

theorem methods_terse {Γ : Env} {K B : Nat} (hR : Roomy K B) (hir : ∀ n d ir, Γ.decl n = some d → genMarshal Γ d = .ok ir → ir.cost B + 10 ≤ K)
    (hX : ∀ n, Γ.decl n = none → Terse K B (Γ.ext n)) : ∀ k n, Terse K B (Γ.methods k n)
  | 0, n => ⟨fun _ _ _ _ _ h => by simp [Env.methods, Methods.loop] at h, fun _ _ _ h => by simp [Env.methods, Methods.loop] at h⟩
  | k + 1, n => by
    have ih := methods_terse hR hir hX k
    cases hd : Γ.decl n with
    | none =>
      have := hX n hd
      simpa only [Env.methods, hd] using this
    | some d =>
      constructor
      · intro v w e w' hs h
        simp only [Env.methods, hd, declMethods, Out.bind_eq_ok] at h
        obtain ⟨ir, h1, h2⟩ := h
        exact runMarshal_length hR ih (hir n d ir hd h1) (fun u hu => by cases hu; exact hs) h2
      · intro w e w' h
        simp only [Env.methods, hd, declMethods, Out.bind_eq_ok] at h
        obtain ⟨ir, h1, h2⟩ := h
        have := runMarshal_length hR ih (hir n d ir hd h1) (fun u hu => by cases hu) h2
        simpa [recvExtent] using this

theorem costs_exist {Γ : Env} (B : Nat) (L : List Nat) :
    ∃ C, ∀ n ∈ L, ∀ d ir, Γ.decl n = some d → genMarshal Γ d = .ok ir → ir.cost B ≤ C := by
  induction L with
  | nil => exact ⟨0, fun n hn => by cases hn⟩
  | cons m L ih =>
    obtain ⟨C, hC⟩ := ih
    have hm : ∃ c, ∀ d ir, Γ.decl m = some d → genMarshal Γ d = .ok ir → ir.cost B ≤ c := by
      by_cases h : ∃ d ir, Γ.decl m = some d ∧ genMarshal Γ d = .ok ir
      · obtain ⟨d, ir, h1, h2⟩ := h
        refine ⟨ir.cost B, fun d' ir' h1' h2' => ?_⟩
        rw [h1] at h1'; cases h1'
        rw [h2] at h2'; cases h2'
        exact Nat.le_refl _
      · exact ⟨0, fun d ir h1 h2 => absurd ⟨d, ir, h1, h2⟩ h⟩
    obtain ⟨c, hc⟩ := hm
    refine ⟨max c C, fun n hn d ir h1 h2 => ?_⟩
    rcases List.mem_cons.1 hn with rfl | hn
    · have := hc d ir h1 h2; omega
    · have := hC n hn d ir h1 h2; omega

theorem terse_exists {Γ : Env} {B : Nat} (h : Finite Γ B) : ∃ K, ∀ k n, Terse K B (Γ.methods k n) := by
  obtain ⟨⟨L, hL⟩, F, hF⟩ := h
  obtain ⟨C, hC⟩ := costs_exist (Γ := Γ) B L
  refine ⟨40 * (B + 1) + 30 + C + F, fun k n => methods_terse ?_ ?_ ?_ k n⟩
  · simp only [Roomy]; omega
  · intro n d ir h1 h2
    have := hC n (hL n d h1) d ir h1 h2
    omega
  · intro n hn
    obtain ⟨h1, h2⟩ := hF n hn
    constructor
    · intro v w e w' hs hm
      have a := h1 v w e w' hs hm
      have b := v.trim_pos
      have c : (40 * (B + 1) + 30 + C) * 1 ≤ (40 * (B + 1) + 30 + C) * v.trim.extent := Nat.mul_le_mul_left _ b
      rw [Nat.add_mul (40 * (B + 1) + 30 + C)]
      omega
    · intro w e w' hm
      have a := h2 w e w' hm
      omega

end

end VJ
