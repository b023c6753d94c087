import Verif.Spec.Trim
import Verif.Proof.Total

/-!
# Encoding and `IsZero` do not look beyond the length of slices
-/

namespace VJ

mutual
theorem trim_trim : ∀ v : GoVal, v.trim.trim = v.trim
  | .ptr v => by simp only [GoVal.trim, trim_trim v]
  | .slice es _ => by simp only [GoVal.trim, trimAll_trimAll es]
  | .arr es => by simp only [GoVal.trim, trimAll_trimAll es]
  | .map kvs => by simp only [GoVal.trim, trimMembers_trimMembers kvs]
  | .struct gs => by simp only [GoVal.trim, trimAll_trimAll gs]
  | .int _ | .float _ | .bool _ | .str _ | .time _ | .uuid _ | .nil | .bytes _ | .barr _ => by simp only [GoVal.trim]
theorem trimAll_trimAll : ∀ l : List GoVal, trimAll (trimAll l) = trimAll l
  | [] => rfl
  | v :: vs => by simp only [trimAll, trim_trim v, trimAll_trimAll vs]
theorem trimMembers_trimMembers : ∀ l : List (Str × GoVal), trimMembers (trimMembers l) = trimMembers l
  | [] => rfl
  | (k, v) :: kvs => by simp only [trimMembers, trim_trim v, trimMembers_trimMembers kvs]
end

theorem sameVisible_trim (v : GoVal) : SameVisible v v.trim := (trim_trim v).symm

variable [Ext]

/-- The methods do not look beyond the length of slices. -/
structure Blind (M : Nat → Methods) : Prop where
  marshalTo : ∀ n v w, (M n).marshalTo (some v.trim) w = (M n).marshalTo (some v) w
  isZero : ∀ n v, (M n).isZero v.trim = (M n).isZero v

omit [Ext] in
theorem writeElems_trim {f : Nat → GoVal → W → Out (Option EErr × W)} (hf : ∀ i v w, f i v.trim w = f i v w) :
    ∀ (vs : List GoVal) (i : Nat) (sep : Bool) (w : W), writeElems f i sep (trimAll vs) w = writeElems f i sep vs w
  | [], _, _, _ => rfl
  | v :: vs, i, sep, w => by
    simp only [trimAll, writeElems, hf, writeElems_trim hf vs]

omit [Ext] in
theorem writeMembers_trim {f : Str → GoVal → W → Out (Option EErr × W)} (hf : ∀ k v w, f k v.trim w = f k v w) :
    ∀ (kvs : List (Str × GoVal)) (sep : Bool) (w : W), writeMembers f sep (trimMembers kvs) w = writeMembers f sep kvs w
  | [], _, _ => rfl
  | (k, v) :: kvs, sep, w => by
    simp only [trimMembers, writeMembers, hf, writeMembers_trim hf kvs]

theorem runVExt_trim {M : Nat → Methods} (hM : Blind M) (label : ECtx) :
    ∀ (x : VExt) (v : GoVal) (w : W), runVExt M label x v.trim w = runVExt M label x v w
  | .int, v, w => by cases v <;> rfl
  | .float, v, w => by cases v <;> rfl
  | .bool, v, w => by cases v <;> rfl
  | .str, v, w => by cases v <;> rfl
  | .time, v, w => by cases v <;> rfl
  | .call n, v, w => by simp only [runVExt, hM.marshalTo]
  | .callPtr n, v, w => by
    cases v <;> try rfl
    simp only [GoVal.trim, runVExt, hM.marshalTo]
  | .star x, v, w => by
    cases v <;> try rfl
    simp only [GoVal.trim, runVExt, runVExt_trim hM label x]
  | .arr x, v, w => by
    have := fun (i : Nat) v w => runVExt_trim hM label x v w
    cases v <;> try rfl
    · simp only [GoVal.trim, runVExt, writeElems_trim this]
    · simp only [GoVal.trim, runVExt, writeElems_trim this]

omit [Ext] in
theorem deref_trim : ∀ (d : Nat) (v : GoVal), deref d v.trim = (deref d v >>= fun v => .ok v.trim)
  | 0, v => rfl
  | d + 1, v => by
    cases v <;> try rfl
    simp only [GoVal.trim, deref, deref_trim d]

theorem writeList_trim {M : Nat → Methods} (hM : Blind M) (name : Str) (x : VExt) (vs : List GoVal) (w : W) :
    writeList M name x (trimAll vs) w = writeList M name x vs w := by
  simp only [writeList, writeElems_trim fun i v w => runVExt_trim hM (itemLabel name i) x v w]

theorem writeMap_trim {M : Nat → Methods} (hM : Blind M) (name : Str) (x : VExt) (kvs : List (Str × GoVal)) (w : W) :
    writeMap M name x (trimMembers kvs) w = writeMap M name x kvs w := by
  simp only [writeMap, writeMembers_trim fun k v w => runVExt_trim hM (memberLabel name k) x v w]

omit [Ext] in
theorem marshalJSON_trim {m : Methods} (v : GoVal) (h : ∀ w, m.marshalTo (some v.trim) w = m.marshalTo (some v) w) :
    marshalJSON m (some v.trim) = marshalJSON m (some v) := by
  simp only [marshalJSON, h]

theorem runBody_trim {M : Nat → Methods} (hM : Blind M) (name : Str) (b : Body) (v : GoVal) (w : W) :
    runBody M name b v.trim w = runBody M name b v w := by
  cases b with
  | prim pw d =>
    simp only [runBody, deref_trim, Out.bind_assoc]
    congr 1; funext x
    cases x <;> cases pw <;> rfl
  | boolTrue => rfl
  | refBool d =>
    simp only [runBody, deref_trim, Out.bind_assoc]
    congr 1; funext x
    cases x <;> rfl
  | time layout d =>
    simp only [runBody, deref_trim, Out.bind_assoc]
    congr 1; funext x
    cases x <;> rfl
  | uuid star =>
    simp only [runBody, deref_trim, Out.bind_assoc]
    congr 1; funext x
    cases x <;> rfl
  | struct n star =>
    simp only [runBody, deref_trim, Out.bind_assoc, Out.ok_bind, hM.marshalTo]
  | inline n =>
    simp only [runBody, marshalJSON_trim v fun w => hM.marshalTo n v w]
  | map x =>
    cases v <;> try rfl
    simp only [GoVal.trim, runBody, writeMap_trim hM]
  | arr x =>
    cases v <;> try rfl
    · simp only [GoVal.trim, runBody, writeList_trim hM]
    · simp only [GoVal.trim, runBody, writeList_trim hM]
  | bytes => cases v <;> rfl

omit [Ext] in
theorem eqZero_trim (v : GoVal) : eqZero v.trim = eqZero v := by cases v <;> rfl

theorem runCond_trim {M : Nat → Methods} (hM : Blind M) (c : Cond) (v : GoVal) : runCond M c v.trim = runCond M c v := by
  cases c with
  | neZero => simp only [runCond, eqZero_trim]
  | timeNotZero => cases v <;> rfl
  | method n => simp only [runCond, hM.isZero]
  | notNil2 =>
    cases v with
    | ptr u => cases u <;> rfl
    | _ => rfl

theorem runBlk_trim {M : Nat → Methods} (hM : Blind M) (b : Blk) (v : GoVal) (wc : Bool) (w : W) :
    runBlk M b v.trim wc w = runBlk M b v wc w := by
  simp only [runBlk, runBody_trim hM, runCond_trim hM]

theorem runBlks_trim {M : Nat → Methods} (hM : Blind M) : ∀ (bs : List Blk) (vs : List GoVal) (wc : Bool) (w : W),
    runBlks M bs (trimAll vs) wc w = runBlks M bs vs wc w
  | [], [], _, _ => rfl
  | [], _ :: _, _, _ => rfl
  | _ :: _, [], _, _ => rfl
  | b :: bs, v :: vs, wc, w => by
    simp only [trimAll, runBlks, runBlk_trim hM, runBlks_trim hM bs vs]

theorem runMarshal_trim {M : Nat → Methods} (hM : Blind M) (ir : MarshalIR) (v : GoVal) (w : W) :
    runMarshal M ir (some v.trim) w = runMarshal M ir (some v) w := by
  cases ir with
  | struct bs =>
    cases bs with
    | nil => rfl
    | cons b bs =>
      cases v <;> try rfl
      simp only [GoVal.trim, runMarshal, runBlks_trim hM]
  | map x =>
    cases v <;> try rfl
    simp only [GoVal.trim, runMarshal, writeMap_trim hM]
  | list fixed x =>
    cases v <;> try rfl
    · simp only [GoVal.trim, runMarshal, writeList_trim hM]
    · simp only [GoVal.trim, runMarshal, writeList_trim hM]
  | bytes fixed => cases v <;> rfl
  | prim p => cases v <;> cases p <;> rfl
  | time => cases v <;> rfl
  | uuid => cases v <;> rfl
  | call n => simp only [runMarshal, hM.marshalTo]

omit [Ext] in
theorem length_trimAll : ∀ l : List GoVal, (trimAll l).length = l.length
  | [] => rfl
  | v :: vs => by simp only [trimAll, List.length_cons, length_trimAll vs]

omit [Ext] in
theorem length_trimMembers : ∀ l : List (Str × GoVal), (trimMembers l).length = l.length
  | [] => rfl
  | (k, v) :: kvs => by simp only [trimMembers, List.length_cons, length_trimMembers kvs]

theorem runZTest_trim {M : Nat → Methods} (hM : Blind M) (t : ZTest) (v : GoVal) : runZTest M t v.trim = runZTest M t v := by
  cases t with
  | const => simp only [runZTest, eqZero_trim]
  | time => cases v <;> rfl
  | method n => simp only [runZTest, hM.isZero]

theorem runZTests_trim {M : Nat → Methods} (hM : Blind M) : ∀ (ts : List ZTest) (vs : List GoVal),
    runZTests M ts (trimAll vs) = runZTests M ts vs
  | [], [] => rfl
  | [], _ :: _ => rfl
  | _ :: _, [] => rfl
  | t :: ts, v :: vs => by simp only [trimAll, runZTests, runZTest_trim hM, runZTests_trim hM ts vs]

theorem runAll_trim {M : Nat → Methods} (hM : Blind M) (t : ZTest) : ∀ vs : List GoVal, runAll M t (trimAll vs) = runAll M t vs
  | [] => rfl
  | v :: vs => by simp only [trimAll, runAll, runZTest_trim hM, runAll_trim hM t vs]

theorem runZero_trim {M : Nat → Methods} (hM : Blind M) (ir : ZeroIR) (v : GoVal) : runZero M ir v.trim = runZero M ir v := by
  cases ir with
  | never => rfl
  | struct ts =>
    cases v <;> try rfl
    simp only [GoVal.trim, runZero, runZTests_trim hM]
  | len =>
    cases v <;> try rfl
    · simp only [GoVal.trim, runZero, GoVal.len, length_trimAll]
    · simp only [GoVal.trim, runZero, GoVal.len, length_trimMembers]
  | all t =>
    cases v <;> try rfl
    simp only [GoVal.trim, runZero, runAll_trim hM]
  | allBytes => cases v <;> rfl
  | single t => simp only [runZero, runZTest_trim hM]

theorem methods_blind {Γ : Env} (hΓ : SpareBlind Γ) : ∀ k, Blind (Γ.methods k)
  | 0 => ⟨fun _ _ _ => rfl, fun _ _ => rfl⟩
  | k + 1 => by
    have ih := methods_blind hΓ k
    constructor
    · intro n v w
      cases hd : Γ.decl n with
      | none => rw [methods_none hd]; exact hΓ.marshalTo n _ _ w hd (trim_trim v)
      | some d => rw [methods_some hd]; simp only [declMethods, runMarshal_trim ih]
    · intro n v
      cases hd : Γ.decl n with
      | none => rw [methods_none hd]; exact hΓ.isZero n _ _ hd (trim_trim v)
      | some d => rw [methods_some hd]; simp only [declMethods, runZero_trim ih]

end VJ
