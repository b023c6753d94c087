import Verif.Proof.EncodeBadField

/-!
# Troubled values are not encoded as JSON: structs and declared types
-/

namespace VJ

variable [Ext] [Nans] {Γ : Env} {X : Nat → GoVal → Prop} {S : Nat → Prop} {F : Nat → Option GoVal → JV → Prop}

omit [Ext] in
theorem lex_members {st : List Bool} {p : Char} (hp : p = '{' ∨ p = ',') {ms : List Mem} (hne : ms ≠ []) (h : ∀ m ∈ ms, MemOK m) :
    ∃ q, Shut q ∧ lex (.out (true :: st) p) (joinComma (ms.map (·.2.text))) = .out (true :: st) q := by
  obtain ⟨m, ms, rfl⟩ := List.exists_cons_of_ne_nil hne
  have one : ∀ {m : Mem} {p : Char}, MemOK m → p = '{' ∨ p = ',' →
      ∃ q, Shut q ∧ lex (.out (true :: st) p) m.2.text = .out (true :: st) q :=
    fun hm hp => lex_member hp hm.1 hm.2.1 (lex_json hm.2.2)
  rw [List.map_cons, joinComma_cons, lex_append]
  obtain ⟨q, hq, h1⟩ := one (h m (by simp)) hp
  rw [h1]
  refine lex_commaed (P := fun t => ∃ m, MemOK m ∧ t = m.2.text) ?_ hq ?_
  · rintro t p ⟨m, hm, rfl⟩ hp
    exact one hm hp
  · intro t ht
    obtain ⟨m', hm', rfl⟩ := List.mem_map.1 ht
    exact ⟨m', h m' (by simp [hm']), rfl⟩

omit [Ext] in
theorem lex_members_l {st : List Bool} {ms : List Mem} (hne : ms ≠ []) (h : ∀ m ∈ ms, MemOK m) :
    lex (.out st 'l') (joinComma (ms.map (·.2.text))) = .bad := by
  obtain ⟨m, ms, rfl⟩ := List.exists_cons_of_ne_nil hne
  rw [List.map_cons, joinComma_cons, lex_append]
  have : lex (.out st 'l') m.2.text = .bad := by
    unfold MemberText.text
    rw [lex_append, lex_ws (h m (by simp)).1.1]
    exact lex_quote_l _
  rw [this, lex_bad]

omit [Ext] in
theorem lex_null {st : List Bool} {p : Char} (hp : p = '{' ∨ p = ',') {name : Str} (hn : PlainText name) :
    lex (.out (true :: st) p) (keyText name ++ str "null") = .out (true :: st) 'l' := by
  have : keyText name ++ str "null" = '"' :: (name ++ '"' :: ':' :: str "null") := by simp [keyText]
  rw [this, lex_key ⟨rfl, hp⟩ (strText_plain hn), lex_cons, lex_colon]
  simp [lex, lex1, lexOut, wsChar, str]

/-- what is known of a field and its value -/
structure FieldGiven (Γ : Env) (X : Nat → GoVal → Prop) (S : Nat → Prop) (fd : FieldDecl) (v : GoVal) : Prop where
  good : EGood Γ S fd.typ
  key : PlainText fd.tags.jsonName
  layouts : (∀ tm, PlainText (Ext.fmtTime (writeLayout fd.tags.layout) tm)) ∧ PlainText (Ext.fmtTime (zeroLayout fd.tags.layout) .zero)
  typed : HasType Γ X fd.typ v
  calm : ¬ Omitted Γ fd v → Calm Γ fd.typ v

/-- some field is written -/
def SomeWritten (Γ : Env) (fds : List FieldDecl) (gs : List GoVal) : Prop :=
  ∃ (i : Nat) (fd : FieldDecl) (g : GoVal), fds[i]? = some fd ∧ gs[i]? = some g ∧ ¬ Omitted Γ fd g

/-- some field is doomed -/
def SomeDoomed (Γ : Env) (F : Nat → Option GoVal → JV → Prop) (fds : List FieldDecl) (gs : List GoVal) : Prop :=
  ∃ (i : Nat) (fd : FieldDecl) (g : GoVal), fds[i]? = some fd ∧ gs[i]? = some g ∧ Doomed Γ F fd g

omit [Nans] in
theorem SomeDoomed.written {fds : List FieldDecl} {gs : List GoVal} (h : SomeDoomed Γ F fds gs) : SomeWritten Γ fds gs := by
  obtain ⟨i, fd, g, h1, h2, h3⟩ := h
  exact ⟨i, fd, g, h1, h2, h3.1⟩

omit [Nans] in
theorem SomeDoomed.tail {fd : FieldDecl} {fds : List FieldDecl} {g : GoVal} {gs : List GoVal} (h : SomeDoomed Γ F (fd :: fds) (g :: gs))
    (hd : ¬ Doomed Γ F fd g) : SomeDoomed Γ F fds gs := by
  obtain ⟨i, f, v, h1, h2, h3⟩ := h
  cases i with
  | zero => cases h1; cases h2; exact absurd h3 hd
  | succ i => exact ⟨i, f, v, h1, h2, h3⟩

omit [Nans] in
theorem SomeWritten.tail {fd : FieldDecl} {fds : List FieldDecl} {g : GoVal} {gs : List GoVal} (h : SomeWritten Γ (fd :: fds) (g :: gs))
    (hd : Omitted Γ fd g) : SomeWritten Γ fds gs := by
  obtain ⟨i, f, v, h1, h2, h3⟩ := h
  cases i with
  | zero => cases h1; cases h2; exact absurd hd h3
  | succ i => exact ⟨i, f, v, h1, h2, h3⟩

omit [Nans] in
/-- the first field is omitted: the trouble is behind it -/
theorem MissingComma.tail {fd : FieldDecl} {fds : List FieldDecl} {g : GoVal} {gs : List GoVal} (h : MissingComma Γ (fd :: fds) (g :: gs))
    (hd : Omitted Γ fd g) : MissingComma Γ fds gs := by
  obtain ⟨i, j, fi, fj, gi, gj, hij, h1, h2, h3, h4, h5, h6, h7⟩ := h
  cases i with
  | zero => cases h1; cases h2; exact absurd hd h5
  | succ i =>
    cases j with
    | zero => omega
    | succ j =>
      refine ⟨i, j, fi, fj, gi, gj, by omega, h1, h2, h3, h4, h5, h6, ?_⟩
      intro l fl gl hl h8 h9
      exact h7 (l + 1) fl gl (by omega) h8 h9

omit [Nans] in
/-- the first field is written: it is forgotten, and another one follows -/
theorem MissingComma.head {fd : FieldDecl} {fds : List FieldDecl} {g : GoVal} {gs : List GoVal} (h : MissingComma Γ (fd :: fds) (g :: gs))
    (hd : ¬ Omitted Γ fd g) : Forgotten Γ fd g ∧ SomeWritten Γ fds gs := by
  obtain ⟨i, j, fi, fj, gi, gj, hij, h1, h2, h3, h4, h5, h6, h7⟩ := h
  cases j with
  | zero => omega
  | succ j => exact ⟨h7 0 fd g (by omega) rfl rfl hd, j, fj, gj, h3, h4, h6⟩

theorem blks_bad {M : Nat → Methods} (hN : FloatTexts) (hP : EncPackage Γ F S) (hF : ∀ n r a b, F n r a → F n r b → a = b) (hM : MSound Γ F X S M)
    (hB : MBad Γ F X S M) (hC : MCompact Γ F X S M)
    (hZ : ∀ n v b, (M n).isZero v = .ok b → IsZeroIs Γ n v b) (hT : ∀ n r, Tame ((M n).marshalTo r)) :
    ∀ {fds : List FieldDecl} {gs : List GoVal} {bs : List Blk}, genBlks Γ fds = .ok bs →
    (∀ (i : Nat) (fd : FieldDecl) (g : GoVal), fds[i]? = some fd → gs[i]? = some g → FieldGiven Γ X S fd g) →
    ∀ {wc : Bool} {w w' : W}, w.err = none → w'.err = none → runBlks M bs gs wc w = .ok (none, w') →
    ∃ t, w' = w.raw t ∧
      (wc = true → SomeDoomed Γ F fds gs → ∀ st p, Shut p → lex (.out (true :: st) p) t = .bad) ∧
      (wc = false → SomeWritten Γ fds gs → ∀ st, lex (.out (true :: st) 'l') t = .bad) ∧
      (wc = false → MissingComma Γ fds gs ∨ SomeDoomed Γ F fds gs → ∀ st p, p = '{' ∨ p = ',' → lex (.out (true :: st) p) t = .bad)
  | [], gs, bs, hg, hok, wc, w, w', hw, hw', hr => by
    cases hg
    cases gs with
    | nil =>
      cases hr
      refine ⟨[], (W.raw_nil _).symm, ?_, ?_, ?_⟩
      · rintro - ⟨i, fd, g, h, -⟩; simp at h
      · rintro - ⟨i, fd, g, h, -⟩; simp at h
      · rintro - (⟨i, j, fi, fj, gi, gj, _, h, _⟩ | ⟨i, fd, g, h, -⟩) <;> simp at h
    | cons => cases hr
  | fd :: fds, gs, bs, hg, hok, wc, w, w', hw, hw', hr => by
    rw [genBlks] at hg
    obtain ⟨b, hb, hg⟩ := Out.bind_eq_ok.1 hg
    obtain ⟨bs', hbs, hg⟩ := Out.bind_eq_ok.1 hg
    cases hg
    cases gs with
    | nil => cases hr
    | cons g gs =>
      rw [runBlks] at hr
      obtain ⟨⟨e, wc1, w1⟩, h1, h2⟩ := Out.bind_eq_ok.1 hr
      cases e with
      | some e => cases h2
      | none =>
        have h2' : runBlks M bs' gs wc1 w1 = .ok (none, w') := h2
        have hw1 : w1.err = none := by
          cases he : w1.err with
          | none => rfl
          | some x =>
            have := (runBlks_tame hT bs' gs wc1).keeps w1 none w' x h2' he
            rw [hw'] at this; cases this
        have hfd := hok 0 fd g rfl rfl
        obtain ⟨k, hplan⟩ := blk_plan hP.toTypeSet hfd.good hb
        have hok' : ∀ (i : Nat) (fd : FieldDecl) (g : GoVal), fds[i]? = some fd → gs[i]? = some g → FieldGiven Γ X S fd g :=
          fun i fd g h h' => hok (i + 1) fd g h h'
        obtain ⟨t', ht', hA, hB', hD⟩ := blks_bad hN hP hF hM hB hC hZ hT hbs hok' hw1 hw' h2'
        by_cases hdoom : Doomed Γ F fd g
        · obtain ⟨rfl, t, rfl, hk⟩ := blk_bad hN hP hF hM hB hC hZ hplan hfd.good hfd.key hfd.typed (hfd.calm hdoom.1) hdoom hw hw1 h1
          refine ⟨(if wc then [','] else []) ++ (t ++ t'), ?_, ?_, ?_, ?_⟩
          · rw [ht']; cases wc <;> simp [putComma, W.raw_raw]
          · rintro rfl - st p hp
            simp only [if_true, List.cons_append, List.nil_append]
            rw [lex_cons, lex_comma (.inl hp), lex_append, hk st ',' (.inr (.inl rfl)), lex_bad]
          · rintro rfl - st
            simp only [Bool.false_eq_true, if_false, List.nil_append]
            rw [lex_append, hk st 'l' (.inr (.inr rfl)), lex_bad]
          · rintro rfl - st p hp
            simp only [Bool.false_eq_true, if_false, List.nil_append]
            rw [lex_append, hk st p (hp.imp id .inl), lex_bad]
        · have hfine : ¬ Omitted Γ fd g → Fine Γ F fd.typ g := by
            intro hno
            exact (fine_iff hN).2 fun h => hdoom ⟨hno, .inl h⟩
          have hsp : ∀ n jv, fd.tags.jsonName = [] → ByMethod Γ fd.typ n → IsZeroIs Γ n g false → Enc Γ F (.decl n) g jv →
              ∃ kv kvs, jv = .obj (kv :: kvs) := by
            intro n jv h3 h4 h5 h6
            apply Classical.byContradiction
            intro h7
            have hs : EmptySplice Γ F fd g := ⟨h3, n, jv, h4, h5, h6, by rintro kv kvs rfl; exact h7 ⟨kv, kvs, rfl⟩⟩
            exact hdoom ⟨hs.written, .inr hs⟩
          have hout := blk_sound hP hM hZ hplan hfd.good hfd.key hfd.layouts hfd.typed hfine hsp hw hw1 h1
          by_cases hfg : Forgotten Γ fd g ∧ ¬ Omitted Γ fd g ∧ wc = false
          · obtain ⟨hfg, hno, rfl⟩ := hfg
            obtain ⟨rfl, rfl⟩ := blk_forgot hplan hfg h1
            refine ⟨(keyText fd.tags.jsonName ++ str "null") ++ t', by rw [ht']; simp [putComma, W.raw_raw], by simp, ?_, ?_⟩
            · rintro - - st
              have : keyText fd.tags.jsonName ++ str "null" = '"' :: (fd.tags.jsonName ++ '"' :: ':' :: str "null") := by simp [keyText]
              rw [lex_append, this, lex_quote_l, lex_bad]
            · rintro - hx st p hp
              rw [lex_append, lex_null hp hfd.key]
              refine hB' rfl ?_ st
              rcases hx with hx | hx
              · exact (hx.head hno).2
              · exact (hx.tail hdoom).written
          · cases hout with
            | omitted ho =>
              exact ⟨t', ht', fun h hx => hA h (hx.tail hdoom), fun h hx => hB' h (hx.tail ho),
                fun h hx => hD h (hx.imp (·.tail ho) (·.tail hdoom))⟩
            | written hne hno hmok henc hwc =>
              rename_i ms
              have hwc1 : wc1 = true := by
                rcases hwc with h | ⟨h, h'⟩
                · exact h
                · cases wc with
                  | true => exact h
                  | false => exact absurd ⟨h', hno, rfl⟩ hfg
              subst hwc1
              refine ⟨(if wc then [','] else []) ++ (joinComma (ms.map (·.2.text)) ++ t'), ?_, ?_, ?_, ?_⟩
              · rw [ht']; cases wc <;> simp [putComma, W.raw_raw]
              · rintro rfl hx st p hp
                simp only [if_true, List.cons_append, List.nil_append]
                rw [lex_cons, lex_comma (.inl hp), lex_append]
                obtain ⟨q, hq, h3⟩ := lex_members (st := st) (.inr rfl : ',' = '{' ∨ ',' = ',') hne hmok
                rw [h3]
                exact hA rfl (hx.tail hdoom) st q hq
              · rintro rfl - st
                simp only [Bool.false_eq_true, if_false, List.nil_append]
                rw [lex_append, lex_members_l hne hmok, lex_bad]
              · rintro rfl hx st p hp
                simp only [Bool.false_eq_true, if_false, List.nil_append]
                rw [lex_append]
                obtain ⟨q, hq, h3⟩ := lex_members (st := st) hp hne hmok
                rw [h3]
                refine hA rfl ?_ st q hq
                rcases hx with hx | hx
                · exact absurd ⟨(hx.head hno).1, hno, rfl⟩ hfg
                · exact hx.tail hdoom

theorem struct_bad {M : Nat → Methods} (hN : FloatTexts) (hP : EncPackage Γ F S) (hF : ∀ n r a b, F n r a → F n r b → a = b) (hM : MSound Γ F X S M)
    (hB : MBad Γ F X S M) (hC : MCompact Γ F X S M)
    (hZ : ∀ n v b, (M n).isZero v = .ok b → IsZeroIs Γ n v b) (hT : ∀ n r, Tame ((M n).marshalTo r))
    {n : Nat} {strict : Bool} {fields : List FieldDecl} (hn : S n) (hd : Γ.decl n = some (.struct strict fields)) {bs : List Blk}
    (hg : genBlks Γ fields = .ok bs) {v : GoVal} (hv : HasType Γ X (.named n) v) (hc : Calm Γ (.named n) v) (ht : Trouble Γ F (.named n) v)
    {w w' : W} (hw : w.err = none) (hr : runMarshal M (.struct bs) (some v) w = .ok (none, w')) : ∃ s, w' = w.raw s ∧ Botched s := by
  obtain ⟨gs, rfl, hl, hty⟩ := hv.of_struct (.named n) hd
  have htr : MissingComma Γ fields gs ∨ SomeDoomed Γ F fields gs := by
    rcases ht.front with ⟨_, _, h, _⟩ | ⟨m, st, fs, gs', h1, h2, h3, h4⟩ | ⟨u, g, h1, h2⟩
    · cases h
    · cases h1; cases h2
      rw [hd] at h3; cases h3
      rcases h4 with h4 | ⟨i, fd, g, h4, h5, h6⟩
      · exact .inl h4
      · exact .inr ⟨i, fd, g, h4, h5, h6.written, .inr h6⟩
    · cases h1 with
      | «alias» he hd' => cases he; rw [hd] at hd'; cases hd'
      | field he hd' h3 h4 h5 =>
        cases he; rw [hd] at hd'; cases hd'
        exact .inr ⟨_, _, _, h3, h4, h5, .inl h2⟩
  have hsome : SomeWritten Γ fields gs := by
    rcases htr with ⟨i, _, fd, _, g, _, _, h1, h2, _, _, h3, _⟩ | h
    · exact ⟨i, fd, g, h1, h2, h3⟩
    · exact h.written
  cases bs with
  | nil =>
    cases genBlks_nil hg
    obtain ⟨i, fd, g, h, -⟩ := hsome
    simp at h
  | cons b bs =>
    have hr' : (runBlks M (b :: bs) gs false (w.raw ['{']) >>= fun r => match r.1 with
      | some e => (.ok (some e, r.2) : Out (Option EErr × W))
      | none => .ok (r.2.err, r.2.raw ['}'])) = .ok (none, w') := hr
    obtain ⟨⟨e, w1⟩, h1, h2⟩ := Out.bind_eq_ok.1 hr'
    cases e with
    | some e => cases h2
    | none =>
      simp only [Out.ok.injEq, Prod.mk.injEq] at h2
      obtain ⟨hw1, rfl⟩ := h2
      have hok : ∀ (i : Nat) (fd : FieldDecl) (g : GoVal), fields[i]? = some fd → gs[i]? = some g → FieldGiven Γ X S fd g :=
        fun i fd g h3 h4 => {
          good := hP.field hn hd (List.mem_of_getElem? h3)
          key := hP.keys n strict fields fd hn hd (List.mem_of_getElem? h3)
          layouts := hP.layouts n strict fields fd hn hd (List.mem_of_getElem? h3)
          typed := hty i fd g h3 h4
          calm := fun ho => hc.part (.field .self (.named n) hd h3 h4 ho) }
      obtain ⟨t, rfl, -, hC', hD⟩ := blks_bad hN hP hF hM hB hC hZ hT hg hok (w := w.raw ['{']) hw hw1 h1
      refine ⟨'{' :: (t ++ ['}']), by simp [W.raw_raw], by simp, ?_, ?_⟩
      · intro st p hp
        rw [lex_cons, (lex_open hp).1, lex_append, hD rfl htr st '{' (.inl rfl), lex_bad]
      · intro b hb
        simp only [List.cons.injEq, List.append_cancel_right_eq, true_and] at hb
        subst hb
        rintro st p (rfl | rfl | rfl)
        · exact hD rfl htr st _ (.inl rfl)
        · exact hD rfl htr st _ (.inr rfl)
        · exact hC' rfl hsome st

theorem decl_bad {M : Nat → Methods} (hN : FloatTexts) (hP : EncPackage Γ F S) (hF : ∀ n r a b, F n r a → F n r b → a = b) (hM : MSound Γ F X S M)
    (hB : MBad Γ F X S M) (hC : MCompact Γ F X S M)
    (hZ : ∀ n v b, (M n).isZero v = .ok b → IsZeroIs Γ n v b) (hT : ∀ n r, Tame ((M n).marshalTo r))
    {n : Nat} {d : Decl} {ir : MarshalIR} (hn : S n) (hd : Γ.decl n = some d) (hp : DeclPlan Γ d ir)
    {v : GoVal} (hv : HasType Γ X (.named n) v) (hc : Calm Γ (.named n) v) (ht : Trouble Γ F (.named n) v)
    {w w' : W} (hw : w.err = none) (hr : runMarshal M ir (some v) w = .ok (none, w')) : ∃ s, w' = w.raw s ∧ Botched s := by
  have al : ∀ {t : TExpr}, d = .alias t → HasType Γ X t v ∧ Trouble Γ F t v ∧ EGood Γ S t ∧ Calm Γ t v := by
    rintro t rfl
    exact ⟨hv.of_alias (.named n) hd, ht.alias (.named n) hd, hP.alias hn hd, hc.alias (.named n) hd⟩
  cases hp with
  | struct h => exact struct_bad hN hP hF hM hB hC hZ hT hn hd h hv hc ht hw hr
  | map h =>
    obtain ⟨hv', ht', hg, hc'⟩ := al rfl
    obtain ⟨kvs, rfl, hx⟩ := ht'.map
    rcases hv'.map_cases with h' | ⟨kvs', h', -, hkv⟩
    · cases h'
    · cases h'
      exact writeMap_bad hN hP hM hB h hg.map hkv (fun _ hm => hc'.part (.map .self hm)) hx hw (tail_ok hr)
  | slice hb h =>
    obtain ⟨hv', ht', hg, hc'⟩ := al rfl
    obtain ⟨es, sp, rfl, hx⟩ := ht'.slice
    rcases hv'.slice_cases hb with h' | ⟨es', sp', h', he, -⟩
    · cases h'
    · cases h'
      exact writeList_bad hN hP hM hB h hg.slice he (fun _ hm => hc'.part (.slice .self hm)) hx hw (tail_ok hr)
  | array hb h =>
    obtain ⟨hv', ht', hg, hc'⟩ := al rfl
    obtain ⟨es, rfl, hx⟩ := ht'.array
    obtain ⟨es', h', -, he⟩ := hv'.array_cases hb
    cases h'
    exact writeList_bad hN hP hM hB h hg.array he (fun _ hm => hc'.part (.array .self hm)) hx hw (tail_ok hr)
  | bytes => exact (no_trouble_bytes (.inl rfl) (al rfl).1 (al rfl).2.1).elim
  | fixedBytes => exact (no_trouble_bytes (.inr ⟨_, rfl⟩) (al rfl).1 (al rfl).2.1).elim
  | time => exact (no_trouble_time (al rfl).2.1).elim
  | uuid => exact (no_trouble_uuid (al rfl).2.1).elim
  | prim p =>
    obtain ⟨hv', ht', -, hc'⟩ := al rfl
    obtain ⟨f, rfl, hf⟩ := trouble_prim ht'
    have hr' : w' = w.raw (Ext.fmtFloat f) := by
      cases p <;> cases hr <;> rfl
    exact ⟨_, hr', hN.botched hf (hc'.float ht')⟩
  | name h =>
    obtain ⟨hv', ht', hg, hc'⟩ := al rfl
    exact hB _ v w w' (hg.name h) (hv'.name h (.named _)) (hc'.rename h (.named _)) (ht'.rename h (.named _)) hw hr

omit [Nans] in
theorem methods_compact (hP : EncPackage Γ F S) (hC : CompactForeign Γ S) : ∀ k, MCompact Γ F X S (Γ.methods k)
  | 0 => fun _ _ _ _ _ _ _ _ h => by cases h
  | k + 1 => by
    intro n v w s hn hv hf hw hr hj hd
    rcases hd with hd | ⟨strict, fields, hd⟩
    · rw [methods_none hd] at hr
      exact hC n (some v) w s hn hd hw hr hj
    · rw [methods_some hd] at hr
      obtain ⟨ir, hir, hr⟩ := Out.bind_eq_ok.1 hr
      cases decl_plan hP.toTypeSet hn hd hir with
      | struct h =>
        obtain ⟨ms, h1, h2, h3⟩ := struct_doc hP (methods_sound hP k) (fun n v b h => ⟨k, h⟩) (fun n r => methods_tame hP.tame k n r)
          hn hd h hv hf hw hr
        have hs := W.raw_inj h3
        subst hs
        have := json_unique hj (json_obj h1)
        have hms : ms = [] := by
          cases ms with
          | nil => rfl
          | cons => simp at this
        subst hms
        rfl

theorem methods_bad (hN : FloatTexts) (hP : EncPackage Γ F S) (hF : ∀ n r a b, F n r a → F n r b → a = b) (hC : CompactForeign Γ S) :
    ∀ k, MBad Γ F X S (Γ.methods k)
  | 0 => fun _ _ _ _ _ _ _ _ _ h => by cases h
  | k + 1 => by
    have ih := methods_bad hN hP hF hC k
    intro n v w w' hn hv hc ht hw hr
    cases hd : Γ.decl n with
    | none =>
      rcases ht.front with ⟨_, _, h, _⟩ | ⟨m, _, _, _, _, h2, h3, _⟩ | ⟨u, g, h1, _⟩
      · cases h
      · cases h2; rw [hd] at h3; cases h3
      · cases h1 with
        | «alias» he hd' => cases he; rw [hd] at hd'; cases hd'
        | field he hd' => cases he; rw [hd] at hd'; cases hd'
    | some d =>
      rw [methods_some hd] at hr
      obtain ⟨ir, hir, hr⟩ := Out.bind_eq_ok.1 hr
      exact decl_bad hN hP hF (methods_sound hP k) ih (methods_compact hP hC k) (fun n v b h => ⟨k, h⟩) (fun n r => methods_tame hP.tame k n r)
        hn hd (decl_plan hP.toTypeSet hn hd hir) hv hc ht hw hr

end VJ
