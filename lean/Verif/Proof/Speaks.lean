import Verif.Proof.Frame

/-!
# Where the errors of encoding come from

Whatever holds of the errors of hand-written methods and the two errors the generated code
makes itself, and is not lost when a field, an item or a member is named, holds of every error
an encoder returns or leaves in the writer.
-/

namespace VJ

/-- a property of errors that survives naming a place whose name is in `N` -/
structure Lasting (N : Str → Prop) (Q : EErr → Prop) : Prop where
  attr : ∀ e name, N name → Q e → Q (e.wrap (.attr name))
  item : ∀ e name i, N name → Q e → Q (e.wrap (.item name i))
  member : ∀ e name key, N name → Q e → Q (e.wrap (.member name key))
  time : Q ⟨[], codeTimeText⟩
  object : Q ⟨[], codeExpectedObject⟩

def AllErr (Q : EErr → Prop) (e : Option EErr) : Prop := ∀ x, e = some x → Q x

/-- with an error of this kind at most in the writer, the function returns and leaves only such -/
def Speaks {α : Type} (Q : EErr → Prop) (R : α → Prop) (f : W → Out (α × W)) : Prop :=
  ∀ w a w', AllErr Q w.err → f w = .ok (a, w') → R a ∧ AllErr Q w'.err

namespace Speaks
variable {α β γ : Type} {Q : EErr → Prop} {R : α → Prop} {R' : β → Prop}

theorem pure {a : α} (h : R a) : Speaks Q R (fun w => .ok (a, w)) := fun _ _ _ hw hf => by cases hf; exact ⟨h, hw⟩
theorem raw {a : α} (h : R a) (s : Str) : Speaks Q R (fun w => .ok (a, w.raw s)) := fun _ _ _ hw hf => by cases hf; exact ⟨h, hw⟩
theorem rawData {a : α} (h : R a) (s : Str) {e : Option EErr} (he : AllErr Q e) : Speaks Q R (fun w => .ok (a, w.rawData s e)) := by
  intro w b w' hw hf
  cases hf
  refine ⟨h, ?_⟩
  obtain ⟨bf, err⟩ := w
  cases err with
  | some x => exact hw
  | none =>
    cases e with
    | some y => exact he
    | none => simp only [W.rawData]; split <;> exact hw

theorem stop {o : Out (α × W)} (h : o = .panic ∨ o = .loop ∨ o = .unsupp) : Speaks Q R (fun _ => o) := by
  rcases h with h | h | h <;> subst h <;> exact fun _ _ _ _ hf => by cases hf

theorem unsupp : Speaks Q R (fun _ => (.unsupp : Out (α × W))) := stop (by simp)

theorem pre {f : W → Out (α × W)} (h : Speaks Q R f) (s : Str) : Speaks Q R (fun w => f (w.raw s)) := fun w a w' hw hf => h (w.raw s) a w' hw hf

theorem bind {f : W → Out (α × W)} {g : α → W → Out (β × W)} (h : Speaks Q R f) (hg : ∀ a, R a → Speaks Q R' (g a)) :
    Speaks Q R' (fun w => f w >>= fun r => g r.1 r.2) := by
  intro w b w' hw hf
  obtain ⟨⟨a, w1⟩, h1, h2⟩ := Out.bind_eq_ok.1 hf
  obtain ⟨ha, hw1⟩ := h _ _ _ hw h1
  exact hg a ha _ _ _ hw1 h2

theorem const {o : Out γ} {g : γ → W → Out (β × W)} (hg : ∀ a, o = .ok a → Speaks Q R' (g a)) : Speaks Q R' (fun w => o >>= fun a => g a w) := by
  cases o with
  | ok a => exact hg a rfl
  | panic => exact stop (by simp)
  | loop => exact stop (by simp)
  | unsupp => exact stop (by simp)

end Speaks

abbrev Says (Q : EErr → Prop) (f : W → Out (Option EErr × W)) : Prop := Speaks Q (AllErr Q) f

theorem allErr_none {Q : EErr → Prop} : AllErr Q none := fun _ h => by cases h
theorem allErr_some {Q : EErr → Prop} {e : EErr} (h : Q e) : AllErr Q (some e) := fun _ h' => by cases h'; exact h

theorem says_tail {Q : EErr → Prop} {f : W → Out (Option EErr × W)} (h : Says Q f) (s : Str) :
    Says Q (fun w => f w >>= fun r => match r.1 with
      | some e => (.ok (some e, r.2) : Out (Option EErr × W))
      | none => .ok (none, r.2.raw s)) :=
  Speaks.bind (g := fun e w => match e with
    | some e => (.ok (some e, w) : Out (Option EErr × W))
    | none => .ok (none, w.raw s)) h fun e he => by
    cases e with
    | none => exact .raw allErr_none _
    | some e => exact .pure he

theorem writeElems_says {Q : EErr → Prop} {f : Nat → GoVal → W → Out (Option EErr × W)} (hf : ∀ i v, Says Q (f i v)) :
    ∀ (vs : List GoVal) (i : Nat) (sep : Bool), Says Q (writeElems f i sep vs)
  | [], i, sep => .pure allErr_none
  | v :: vs, i, sep => by
    have h1 : Says Q (fun w => f i v (if sep then w.raw [','] else w)) := by
      cases sep with
      | true => exact (hf i v).pre _
      | false => exact hf i v
    refine Speaks.bind (g := fun e w => match e with
      | some e => (.ok (some e, w) : Out (Option EErr × W))
      | none => writeElems f (i + 1) true vs w) h1 fun e he => ?_
    cases e with
    | none => exact writeElems_says hf vs _ _
    | some e => exact .pure he

theorem writeMembers_says {Q : EErr → Prop} {f : Str → GoVal → W → Out (Option EErr × W)} (hf : ∀ i v, Says Q (f i v)) :
    ∀ (kvs : List (Str × GoVal)) (sep : Bool), Says Q (writeMembers f sep kvs)
  | [], sep => .pure allErr_none
  | (k, v) :: kvs, sep => by
    have h0 : Says Q (fun w => f k v ((w.raw (jsonStr k)).raw [':'])) := ((hf k v).pre _).pre _
    have h1 : Says Q (fun w => f k v (((if sep then w.raw [','] else w).string k).raw [':'])) := by
      cases sep with
      | true => exact h0.pre _
      | false => exact h0
    refine Speaks.bind (g := fun e w => match e with
      | some e => (.ok (some e, w) : Out (Option EErr × W))
      | none => writeMembers f true kvs w) h1 fun e he => ?_
    cases e with
    | none => exact writeMembers_says hf kvs _
    | some e => exact .pure he

section
variable [Ext] {N : Str → Prop} {Q : EErr → Prop} (hQ : Lasting N Q) {M : Nat → Methods} (hM : ∀ n r, Says Q ((M n).marshalTo r))

include hM

theorem says_call {label : ECtx} (hl : ∀ e, Q e → Q (e.wrap label)) (n : Nat) (r : Option GoVal) :
    Says Q (fun w => (M n).marshalTo r w >>= fun p => .ok (EErr.wrap? label p.1, p.2)) :=
  Speaks.bind (g := fun e w => .ok (EErr.wrap? label e, w)) (hM n _) fun e he => .pure (by
    cases e with
    | none => exact allErr_none
    | some e => exact allErr_some (hl _ (he _ rfl)))

theorem runVExt_says (x : VExt) : ∀ (label : ECtx), (∀ e, Q e → Q (e.wrap label)) → ∀ (v : GoVal), Says Q (runVExt M label x v) := by
  induction x with
  | call n => intro label hl v; exact says_call hM hl n _
  | callPtr n =>
    intro label hl v
    cases v with
    | nil => exact says_call hM hl n _
    | ptr v => exact says_call hM hl n _
    | _ => exact .unsupp
  | star x ih =>
    intro label hl v
    cases v with
    | ptr v => exact ih _ hl _
    | nil => exact .raw allErr_none _
    | _ => exact .unsupp
  | arr x ih =>
    intro label hl v
    cases v with
    | nil => exact .raw allErr_none _
    | slice elems spare => exact says_tail ((writeElems_says (fun _ v => ih label hl v) elems 0 false).pre _) _
    | arr elems => exact says_tail ((writeElems_says (fun _ v => ih label hl v) elems 0 false).pre _) _
    | _ => exact .unsupp
  | _ => intro label hl v; cases v <;> first | exact .unsupp | exact .raw allErr_none _

include hQ

theorem writeList_says {name : Str} (hn : N name) (x : VExt) (vs : List GoVal) : Says Q (writeList M name x vs) :=
  says_tail ((writeElems_says (fun i v => runVExt_says hM x _ (fun e => hQ.item e name i hn) v) vs 0 false).pre _) _

theorem writeMap_says {name : Str} (hn : N name) (x : VExt) (kvs : List (Str × GoVal)) : Says Q (writeMap M name x kvs) :=
  says_tail ((writeMembers_says (fun k v => runVExt_says hM x _ (fun e => hQ.member e name k hn) v) kvs false).pre _) _

theorem runBody_says {name : Str} (hn : N name) (b : Body) (v : GoVal) : Says Q (runBody M name b v) := by
  cases b with
  | prim pw d =>
    refine Speaks.const (g := fun (v : GoVal) (w : W) => match pw, v with
      | .int, .int i => .ok (none, (w.raw (keyText name)).raw (intStr i))
      | .float, .float f => .ok (none, (w.raw (keyText name)).raw (Ext.fmtFloat f))
      | .str, .str s => .ok (none, (w.raw (keyText name)).string s)
      | _, _ => .unsupp) fun v _ => ?_
    cases pw <;> cases v <;> first | exact .unsupp | exact (Speaks.raw allErr_none _).pre _
  | boolTrue => exact .raw allErr_none _
  | refBool d =>
    refine Speaks.const (g := fun (v : GoVal) (w : W) => match v with
      | .bool b => .ok (none, w.raw (keyText name ++ boolText b))
      | _ => .unsupp) fun v _ => ?_
    cases v <;> first | exact .unsupp | exact .raw allErr_none _
  | time layout d =>
    refine Speaks.const (g := fun (v : GoVal) (w : W) => match v with
      | .time t => .ok (none, (w.raw (keyText name)).raw (timeQuoted layout t))
      | _ => .unsupp) fun v _ => ?_
    cases v <;> first | exact .unsupp | exact (Speaks.raw allErr_none _).pre _
  | uuid star =>
    refine Speaks.const (g := fun (v : GoVal) (w : W) => match v with
      | .uuid b => .ok (none, w.raw (keyText name ++ '"' :: (uuidText b ++ ['"'])))
      | _ => .unsupp) fun v _ => ?_
    cases v <;> first | exact .unsupp | exact .raw allErr_none _
  | struct n star =>
    refine Speaks.const (g := fun (v : GoVal) (w : W) => (M n).marshalTo (some v) (w.raw (keyText name)) >>= fun r => .ok (EErr.wrap? (.attr name) r.1, r.2)) fun v _ => ?_
    exact (says_call hM (fun e => hQ.attr e name hn) n _).pre _
  | inline n =>
    refine Speaks.const (g := fun r w => .ok (none, w.rawData (unpackObject r).1 (unpackObject r).2)) fun r hr => .rawData allErr_none _ ?_
    simp only [marshalJSON] at hr
    obtain ⟨⟨e, w⟩, h1, hr⟩ := Out.bind_eq_ok.1 hr
    obtain ⟨he, hw⟩ := hM n _ _ _ _ (by simp [W.empty]; exact allErr_none) h1
    have key : ∀ x, r = .error x → Q x := by
      intro x hx
      subst hx
      cases e with
      | some e => cases hr; exact he _ rfl
      | none =>
        simp only [W.build] at hr
        cases hx : w.err with
        | none => rw [hx] at hr; cases hr
        | some y => rw [hx] at hr; cases hr; exact hw _ hx
    cases r with
    | error x => exact allErr_some (key x rfl)
    | ok data =>
      simp only [unpackObject]
      split
      · exact allErr_none
      · split
        · exact allErr_some hQ.object
        · exact allErr_none
  | map x =>
    cases v with
    | map kvs => exact (writeMap_says hQ hM hn x kvs).pre _
    | _ => exact .unsupp
  | arr x =>
    cases v with
    | slice elems spare => exact (writeList_says hQ hM hn x elems).pre _
    | arr elems => exact (writeList_says hQ hM hn x elems).pre _
    | _ => exact .unsupp
  | bytes =>
    cases v with
    | bytes b => exact (Speaks.raw allErr_none _).pre _
    | barr b => exact (Speaks.raw allErr_none _).pre _
    | _ => exact .unsupp

theorem runBlk_says {b : Blk} (hn : N b.name) (v : GoVal) (wc : Bool) :
    Speaks Q (fun r : Option EErr × Bool => AllErr Q r.1) (fun w => runBlk M b v wc w >>= fun r => .ok ((r.1, r.2.1), r.2.2)) := by
  have hb : Speaks Q (fun r : Option EErr × Bool => AllErr Q r.1) (fun w => runBody M b.name b.body v (putComma wc w) >>= fun r => .ok ((r.1, true), r.2)) := by
    refine Speaks.bind (g := fun e w => .ok ((e, true), w)) (f := fun w => runBody M b.name b.body v (putComma wc w)) (R := AllErr Q) ?_
      fun e he => .pure he
    cases wc with
    | true => exact (runBody_says hQ hM hn _ _).pre _
    | false => exact runBody_says hQ hM hn _ _
  unfold runBlk
  cases b.cond with
  | none => simpa only [Out.bind_assoc, Out.pure_eq, Out.ok_bind] using hb
  | some c =>
    simp only [Out.bind_assoc]
    refine Speaks.const (g := fun nz w => _) fun nz _ => ?_
    cases nz with
    | true => simpa only [if_true, Out.bind_assoc, Out.pure_eq, Out.ok_bind] using hb
    | false =>
      simp only [Bool.false_eq_true, if_false]
      rcases b.ifZero with _ | ⟨t, sets⟩
      · exact .pure (a := (none, wc)) allErr_none
      · cases wc with
        | true => exact (Speaks.raw (a := (none, true || sets)) allErr_none _).pre _
        | false => exact .raw (a := (none, false || sets)) allErr_none _

theorem runBlks_says (bs : List Blk) : (∀ b ∈ bs, N b.name) → ∀ vs wc, Says Q (runBlks M bs vs wc) := by
  induction bs with
  | nil => intro _ vs wc; cases vs <;> first | exact .pure allErr_none | exact .unsupp
  | cons b bs ih =>
    intro hb vs wc
    cases vs with
    | nil => exact .unsupp
    | cons v vs =>
      have := Speaks.bind (R' := AllErr Q) (g := fun a w => match a.1 with
        | some e => (.ok (some e, w) : Out (Option EErr × W))
        | none => runBlks M bs vs a.2 w) (runBlk_says hQ hM (hb b (List.mem_cons_self ..)) v wc) fun a ha => by
          obtain ⟨e, wc'⟩ := a
          cases e with
          | some e => exact .pure ha
          | none => exact ih (fun b h => hb b (List.mem_cons_of_mem _ h)) _ _
      simp only [Out.bind_assoc, Out.ok_bind] at this
      exact this

/-- the names in a method -/
def MarshalIR.Names (N : Str → Prop) : MarshalIR → Prop
  | .struct bs => ∀ b ∈ bs, N b.name
  | _ => N []

theorem runMarshal_says {ir : MarshalIR} (hN : ir.Names N) (r : Option GoVal) : Says Q (runMarshal M ir r) := by
  have tail : ∀ {f : W → Out (Option EErr × W)} (s : Str), Says Q f → Says Q (fun w => f w >>= fun r => match r.1 with
      | some e => (.ok (some e, r.2) : Out (Option EErr × W))
      | none => .ok (r.2.err, r.2.raw s)) := fun s h =>
    Speaks.bind (g := fun e w => match e with
      | some e => (.ok (some e, w) : Out (Option EErr × W))
      | none => .ok (w.err, w.raw s)) h fun e he => by
      cases e with
      | none => exact fun w a w' hw hf => by cases hf; exact ⟨hw, hw⟩
      | some e => exact .pure he
  have tail' : ∀ {f : W → Out (Option EErr × W)}, Says Q f → Says Q (fun w => f w >>= fun r => match r.1 with
      | some e => (.ok (some e, r.2) : Out (Option EErr × W))
      | none => .ok (r.2.err, r.2)) := fun h =>
    Speaks.bind (g := fun e w => match e with
      | some e => (.ok (some e, w) : Out (Option EErr × W))
      | none => .ok (w.err, w)) h fun e he => by
      cases e with
      | none => exact fun w a w' hw hf => by cases hf; exact ⟨hw, hw⟩
      | some e => exact .pure he
  cases ir with
  | struct bs =>
    cases bs with
    | nil => exact .raw allErr_none _
    | cons b bs =>
      cases r with
      | none => exact .raw allErr_none _
      | some v =>
        cases v with
        | struct vs => exact tail _ ((runBlks_says hQ hM _ hN _ _).pre _)
        | _ => exact .unsupp
  | map x =>
    cases r with
    | none => exact .raw allErr_none _
    | some v =>
      cases v with
      | nil => exact .raw allErr_none _
      | map kvs => exact tail' (writeMap_says hQ hM hN _ _)
      | _ => exact .unsupp
  | list fixed x =>
    cases r with
    | none => exact .raw allErr_none _
    | some v =>
      cases v with
      | nil => cases fixed <;> first | exact .unsupp | exact .raw allErr_none _
      | slice es sp => exact tail' (writeList_says hQ hM hN _ _)
      | arr es => exact tail' (writeList_says hQ hM hN _ _)
      | _ => exact .unsupp
  | bytes fixed =>
    cases r with
    | none => exact .raw allErr_none _
    | some v =>
      cases v with
      | nil => cases fixed <;> first | exact .unsupp | exact .raw allErr_none _
      | bytes b => exact .raw allErr_none _
      | barr b => exact .raw allErr_none _
      | _ => exact .unsupp
  | prim p =>
    cases r with
    | none => exact .raw allErr_none _
    | some v => cases p <;> cases v <;> first | exact .unsupp | exact .raw allErr_none _
  | time =>
    cases r with
    | none => exact .raw allErr_none _
    | some v =>
      cases v with
      | time t =>
        have e : runMarshal M .time (some (.time t)) = fun w => match Ext.timeText t with
          | some s => .ok (none, w.raw ('"' :: (s ++ ['"'])))
          | none => .ok (some ⟨[], codeTimeText⟩, w) := rfl
        rw [e]
        cases Ext.timeText t with
        | none => exact .pure (allErr_some hQ.time)
        | some s => exact .raw allErr_none _
      | _ => exact .unsupp
  | uuid =>
    cases r with
    | none => exact .raw allErr_none _
    | some v => cases v <;> first | exact .unsupp | exact .raw allErr_none _
  | call n =>
    cases r with
    | none => exact .raw allErr_none _
    | some v => exact hM n _

end

/-- the JSON name of the field is the name of the block -/
theorem genFieldMarshal_name [Ext] {Γ : Env} {fd : FieldDecl} {b : Blk} (h : genFieldMarshal Γ fd = .ok b) : b.name = fd.tags.jsonName := by
  have ht : ∀ {p : Prim} {d : Nat}, typeMarshal fd.tags p d = .ok b → b.name = fd.tags.jsonName := by
    intro p d h
    simp only [typeMarshal] at h
    repeat' split at h
    all_goals first | (cases h <;> rfl) | skip
    all_goals (obtain ⟨_, _, h⟩ := Out.bind_eq_ok.1 h; cases h; rfl)
  have hm : ∀ {n : Nat} {s : Bool}, marshalTransit fd.tags n s = .ok b → b.name = fd.tags.jsonName := by
    intro n s h
    simp only [marshalTransit] at h
    repeat' split at h
    all_goals first | (cases h <;> rfl) | (cases h; simp_all)
  have hti : ∀ {d : Nat}, (Out.ok (timeMarshal fd.tags d) : Out Blk) = .ok b → b.name = fd.tags.jsonName := by
    intro d h
    cases h
    simp only [timeMarshal]
  simp only [genFieldMarshal] at h
  repeat' split at h
  all_goals first
    | exact ht h
    | exact hm h
    | exact hti h
    | (cases h <;> rfl)
    | (obtain ⟨_, _, h⟩ := Out.bind_eq_ok.1 h; cases h; rfl)

theorem genBlks_names [Ext] {Γ : Env} : ∀ {fields : List FieldDecl} {bs : List Blk}, genBlks Γ fields = .ok bs →
    ∀ b ∈ bs, ∃ fd ∈ fields, b.name = fd.tags.jsonName
  | [], bs, h, b, hb => by cases h; cases hb
  | fd :: fds, bs, h, b, hb => by
    simp only [genBlks] at h
    obtain ⟨b0, h0, h⟩ := Out.bind_eq_ok.1 h
    obtain ⟨bs', h1, h⟩ := Out.bind_eq_ok.1 h
    cases h
    rcases List.mem_cons.1 hb with rfl | hb
    · exact ⟨fd, List.mem_cons_self .., genFieldMarshal_name h0⟩
    · obtain ⟨fd', h2, h3⟩ := genBlks_names h1 b hb
      exact ⟨fd', List.mem_cons_of_mem _ h2, h3⟩

theorem methods_says [Ext] {Γ : Env} {N : Str → Prop} {Q : EErr → Prop} (hQ : Lasting N Q) (h0 : N [])
    (hN : ∀ n strict fields fd, Γ.decl n = some (.struct strict fields) → fd ∈ fields → N fd.tags.jsonName)
    (hF : ∀ n r, Γ.decl n = none → Says Q ((Γ.ext n).marshalTo r)) : ∀ (k n : Nat) (r : Option GoVal), Says Q ((Γ.methods k n).marshalTo r)
  | 0, n, r => .stop (.inr (.inl rfl))
  | k + 1, n, r => by
    unfold Env.methods
    cases hd : Γ.decl n with
    | none => exact hF n r hd
    | some d =>
      refine Speaks.const (o := genMarshal Γ d) (g := fun ir w => runMarshal (Γ.methods k) ir r w) fun ir hir =>
        runMarshal_says hQ (fun n r => methods_says hQ h0 hN hF k n r) ?_ r
      cases d with
      | struct strict fields =>
        simp only [genMarshal] at hir
        obtain ⟨bs, h1, hir⟩ := Out.bind_eq_ok.1 hir
        cases hir
        intro b hb
        obtain ⟨fd, h2, h3⟩ := genBlks_names h1 b hb
        rw [h3]
        exact hN n strict fields fd hd h2
      | alias t =>
        cases ir with
        | struct bs =>
          exfalso
          simp only [genMarshal] at hir
          repeat' split at hir
          all_goals first
            | cases hir
            | (obtain ⟨_, _, hir⟩ := Out.bind_eq_ok.1 hir; cases hir)
        | _ => exact h0

end VJ
