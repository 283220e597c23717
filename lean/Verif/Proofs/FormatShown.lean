import Verif.Proofs.FormatText
/-
The text of the formatter, exactly; and formatters for different writers.
-/
namespace SV

variable {T W : Type} {u : Uni}

/-! ### Formatters for any writer -/

def FmtOpts.cfg (o : FmtOpts T) : TrCfg T where
  indentBy := o.indentBy
  leadingIndent := o.leadingIndent
  cust v := (o.formatters.findSome? (· v)).map (·, true)
  ctx := o.context.map fun p c => (p c, true)

theorem runTr_true (wr : Writer W) (l : List Str) (w : W) : runTr wr (l, true) w = runWrites wr l w := by
  unfold runTr
  cases runWrites wr l w with
  | mk ok w' => cases ok <;> rfl

theorem FmtOpts.represents (o : FmtOpts T) (wr : Writer W) : Represents (o.builder wr) o.cfg where
  indent := rfl
  lead := rfl
  cust := by
    intro v w
    simp only [FmtOpts.builder, FmtOpts.cfg]
    induction o.formatters with
    | nil => rfl
    | cons f fs ih =>
      simp only [List.map_cons, runFormatters]
      cases hf : f v with
      | none => simp only [hf, List.findSome?_cons]; exact ih
      | some ws => simp [hf, List.findSome?_cons, runTr_true]
  ctx := by
    simp only [FmtOpts.builder, FmtOpts.cfg]
    cases o.context with
    | none => trivial
    | some p => intro c w; simp [runTr_true]

theorem FmtOpts.write_eq (o : FmtOpts T) (wr : Writer W) (v : Value T) (w : W) :
    (o.builder wr).write u v w = runTr wr (trValue u o.cfg v o.style) w :=
  SV.write_eq (o.represents wr) v w


/-! ### The text, exactly -/

theorem decDigits_eq : ∀ (fuel n : Nat), 0 < fuel → n < 10 ^ fuel → decDigits fuel n = Nat.toDigits 10 n := by
  have hd : ∀ n, n < 10 → digitChar n = Nat.digitChar n := by decide
  intro fuel
  induction fuel with
  | zero => intro n h; omega
  | succ fuel ih =>
    intro n _ hn
    unfold decDigits
    split
    · next h => rw [Nat.toDigits_of_lt_base h, hd n h]
    · next h =>
      have hf : 0 < fuel := by
        rcases Nat.eq_zero_or_pos fuel with h0 | h0
        · subst h0; simp at hn; omega
        · exact h0
      rw [Nat.toDigits_of_base_le (by decide) (by omega), ih (n / 10) hf (by rw [Nat.div_lt_iff_lt_mul (by decide)]; rw [Nat.pow_succ] at hn; exact hn),
        hd _ (Nat.mod_lt _ (by decide))]

theorem escape_iff {c e : Char} : toEscapeCode c = some e ↔ Escape e c := by
  constructor
  · exact toEscapeCode_some
  · intro h; cases h <;> rfl

theorem escaped_iff {s t : Str} : Escaped s t ↔ t = (trChars s).txt := by
  constructor
  · intro h
    induction h with
    | nil => rfl
    | esc he h ih =>
      rw [trChars, txt_seq (by simp), ← ih, trEscaped, escape_iff.2 he]
      simp [txts]
    | @plain c s t hc h ih =>
      rw [trChars, txt_seq (by simp), ← ih, trEscaped]
      cases hh : toEscapeCode c with
      | none => simp
      | some e => exact (hc e (escape_iff.1 hh)).elim
  · rintro rfl
    induction s with
    | nil => exact .nil
    | cons c s ih =>
      rw [trChars, txt_seq (by simp), trEscaped]
      cases hh : toEscapeCode c with
      | none =>
        simp only [txts]
        refine .plain ?_ ih
        intro e he; rw [escape_iff.2 he] at hh; cases hh
      | some e => simpa [txts] using Escaped.esc (escape_iff.1 hh) ih

theorem string_txt (s : Str) : (trString s).txt = '"' :: (trChars s).txt ++ ['"'] := by simp [trString, txts]

theorem char_txt (c : Char) : (trChar c).txt = '\'' :: (trChars [c]).txt ++ ['\''] := by simp [trChar, trChars, txts]

theorem shownName_iff {n s : Str} : ShownName u [] n s ↔ s = (trName u n).txt := by
  unfold trName
  constructor
  · intro h
    cases h with
    | ident h => rw [if_pos (isIdent_iff.2 h)]; simp
    | quoted h ht => rw [if_neg (by rwa [isIdent_iff]), string_txt, escaped_iff.1 ht]; rfl
  · rintro rfl
    split
    · next h => simpa using ShownName.ident (isIdent_iff.1 h)
    · next h => rw [string_txt]; exact .quoted (by rwa [isIdent_iff] at h) (escaped_iff.2 rfl)

theorem shownVariant_iff {n s : Str} : ShownName u ['v'] n s ↔ s = (trVariantName u n).txt := by
  unfold trVariantName
  constructor
  · intro h
    cases h with
    | ident h => rw [if_pos (isIdent_iff.2 h)]; simp
    | quoted h ht => rw [if_neg (by rwa [isIdent_iff]), txt_seq (by simp), string_txt, escaped_iff.1 ht]; simp
  · rintro rfl
    split
    · next h => simpa using ShownName.ident (isIdent_iff.1 h)
    · next h =>
      rw [txt_seq (by simp), string_txt]
      simpa using ShownName.quoted (v := ['v']) (by rwa [isIdent_iff] at h) (escaped_iff.2 rfl)

theorem prim_shown {o : FmtOpts T} {k : Nat} {p : Primitive} (h : (trPrimitive p).2 = true) :
    Shown u o k (.dflt (.primitive p)) (trPrimitive p).txt := by
  cases p with
  | bool b =>
    cases b
    · exact .false_
    · exact .true_
  | char c => rw [trPrimitive, char_txt]; exact .char (escaped_iff.2 rfl)
  | string s => rw [trPrimitive, string_txt]; exact .string (escaped_iff.2 rfl)
  | u128 n =>
    simp only [trPrimitive]
    rw [decDigits_eq _ _ (by decide) (Nat.lt_trans n.lt (by decide))]; simpa using Shown.unsigned (u := u) (o := o) (k := k) (n := n)
  | i128 n =>
    have hb : n.val.natAbs < 10 ^ 39 := by
      refine Nat.lt_of_le_of_lt (m := 2 ^ 127) ?_ (by decide)
      have := n.ge; have := n.lt; omega
    simp only [trPrimitive, trI128]
    rw [decDigits_eq _ _ (by decide) hb]
    split
    · simpa [txts] using Shown.negative (u := u) (o := o) (k := k) (n := n) (m := n.val.natAbs) (by omega) (by omega)
    · simpa using Shown.nonneg (u := u) (o := o) (k := k) (n := n) (m := n.val.natAbs) (by omega)
  | u256 b => simp [trPrimitive] at h
  | i256 b => simp [trPrimitive] at h

theorem shown_prim {o : FmtOpts T} {k : Nat} {p : Primitive} {s : Str} (h : Shown u o k (.dflt (.primitive p)) s) :
    (trPrimitive p).2 = true ∧ s = (trPrimitive p).txt := by
  cases h with
  | true_ => exact ⟨rfl, rfl⟩
  | false_ => exact ⟨rfl, rfl⟩
  | char h => rw [trPrimitive, char_txt, escaped_iff.1 h]; exact ⟨by simp, rfl⟩
  | string h => rw [trPrimitive, string_txt, escaped_iff.1 h]; exact ⟨by simp, rfl⟩
  | @unsigned _ n => rw [trPrimitive, decDigits_eq _ _ (by decide) (Nat.lt_trans n.lt (by decide))]; simp
  | @nonneg _ n m h =>
    have hm : n.val.natAbs = m := by omega
    have hb : m < 10 ^ 39 := by
      refine Nat.lt_of_le_of_lt (m := 2 ^ 127) ?_ (by decide)
      have := n.ge; have := n.lt; omega
    rw [trPrimitive, trI128, if_neg (by omega), hm, decDigits_eq _ _ (by decide) hb]; simp
  | @negative _ n m h h0 =>
    have hm : n.val.natAbs = m := by omega
    have hb : m < 10 ^ 39 := by
      refine Nat.lt_of_le_of_lt (m := 2 ^ 127) ?_ (by decide)
      have := n.ge; have := n.lt; omega
    rw [trPrimitive, trI128, if_pos (by omega), hm, decDigits_eq _ _ (by decide) hb]; simp [txts]

/-- The style when `k` brackets are open. -/
def Style.deep (k : Nat) : Style → Style
  | .pretty n => .pretty (n + k)
  | s => s

theorem Style.deep_inc (st : Style) (k : Nat) : (st.deep k).inc = st.deep (k + 1) := by cases st <;> rfl
theorem Style.deep_zero (st : Style) : st.deep 0 = st := by cases st <;> rfl

theorem trIndents_txt (s : Str) (n : Nat) : (trIndents s n).txt = rep s n := by
  induction n with
  | zero => rfl
  | succ n ih => rw [trIndents, txt_seq (by simp), ih]; simp [rep]

section
variable (o : FmtOpts T)

theorem trSpace_txt (k : Nat) : (trSpace (o.style.deep k)).txt = o.space := by
  unfold FmtOpts.space
  cases o.style <;> rfl

theorem trNewline_txt (n : Nat) : (trNewline o.cfg n).txt = '\n' :: o.leadingIndent ++ rep o.indentBy n := by
  rw [trNewline, txt_seq (by simp), txt_seq (by simp), trIndents_txt]
  simp [FmtOpts.cfg]

theorem trNl_txt (k : Nat) : (trNl o.cfg (o.style.deep k)).txt = o.line k := by
  unfold FmtOpts.line
  cases o.style with
  | pretty n => exact trNewline_txt o (n + k)
  | _ => rfl

theorem trSep_txt (k : Nat) : (trSep o.cfg (o.style.deep k)).txt = o.gap k := by
  unfold FmtOpts.gap
  cases o.style with
  | pretty n => exact trNewline_txt o (n + k)
  | _ => rfl

theorem context_txt (c : T) : (trContext o.cfg c).2 = true ∧ (trContext o.cfg c).txt = o.before c := by
  simp only [FmtOpts.before, FmtOpts.cfg, trContext]
  cases o.context with
  | none => simp
  | some p => simp [txts]; rfl

theorem cust_txt (v : Value T) : (o.custom v = none ∧ o.cfg.cust v = none) ∨ ∃ t, o.custom v = some t.txt ∧ o.cfg.cust v = some t ∧ t.2 = true := by
  unfold FmtOpts.custom
  have : o.cfg.cust v = (o.formatters.findSome? (· v)).map (·, true) := rfl
  rw [this]
  cases o.formatters.findSome? (· v) with
  | none => left; exact ⟨rfl, rfl⟩
  | some ws => right; exact ⟨(ws, true), rfl, rfl, rfl⟩

theorem fields_shown (k : Nat) : ∀ (fs : List (Str × Value T)) (idx : Nat), fs ≠ [] →
    (∀ p ∈ fs, (trValue u o.cfg p.2 (o.style.deep k)).2 = true → Shown u o k (.val p.2) (trValue u o.cfg p.2 (o.style.deep k)).txt) →
    (trFields u o.cfg idx fs (o.style.deep k)).2 = true →
    ∃ s, Shown u o k (.fields fs) s ∧
      (trFields u o.cfg idx fs (o.style.deep k)).txt = (if idx ≠ 0 then ',' :: o.gap k else []) ++ s := by
  intro fs
  induction fs with
  | nil => intro idx h; exact absurd rfl h
  | cons p r ihr =>
    intro idx _ ih hok
    obtain ⟨n, v⟩ := p
    have hc : (if idx ≠ 0 then Tr.w [','] >+> trSep o.cfg (o.style.deep k) else Tr.ok).2 = true := by split <;> simp
    have hct : (if idx ≠ 0 then Tr.w [','] >+> trSep o.cfg (o.style.deep k) else Tr.ok).txt = (if idx ≠ 0 then ',' :: o.gap k else []) := by
      split
      · rw [txt_seq (by simp), trSep_txt]; simp
      · rfl
    simp only [trFields, seq_ok, hc, ok_name, ok_w, ok_space, Bool.true_and, Bool.and_eq_true] at hok
    have e : (trFields u o.cfg idx ((n, v) :: r) (o.style.deep k)).txt = (if idx ≠ 0 then ',' :: o.gap k else []) ++
        ((trName u n).txt ++ ':' :: o.space ++ (trValue u o.cfg v (o.style.deep k)).txt ++ (trFields u o.cfg (idx + 1) r (o.style.deep k)).txt) := by
      simp only [trFields]
      rw [txt_seq hc, hct, txt_seq (by simp), txt_seq (by simp), txt_seq (by simp), txt_seq hok.1, trSpace_txt]
      simp
    have hv := ih (n, v) (by simp) hok.1
    cases r with
    | nil =>
      refine ⟨_, ?_, e⟩
      have := Shown.field1 ((shownName_iff (n := n)).2 rfl) hv
      simpa [trFields] using this
    | cons p2 r2 =>
      obtain ⟨s, hs, hst⟩ := ihr (idx + 1) (by simp) (fun p hp => ih p (by simp [hp])) hok.2
      refine ⟨_, ?_, e⟩
      have := Shown.fieldCons ((shownName_iff (n := n)).2 rfl) hv hs
      rw [hst]
      simpa using this

theorem vals_shown (k : Nat) : ∀ (fs : List (Value T)) (idx : Nat), fs ≠ [] →
    (∀ p ∈ fs, (trValue u o.cfg p (o.style.deep k)).2 = true → Shown u o k (.val p) (trValue u o.cfg p (o.style.deep k)).txt) →
    (trVals u o.cfg idx fs (o.style.deep k)).2 = true →
    ∃ s, Shown u o k (.vals fs) s ∧
      (trVals u o.cfg idx fs (o.style.deep k)).txt = (if idx ≠ 0 then ',' :: o.gap k else []) ++ s := by
  intro fs
  induction fs with
  | nil => intro idx h; exact absurd rfl h
  | cons v r ihr =>
    intro idx _ ih hok
    have hc : (if idx ≠ 0 then Tr.w [','] >+> trSep o.cfg (o.style.deep k) else Tr.ok).2 = true := by split <;> simp
    have hct : (if idx ≠ 0 then Tr.w [','] >+> trSep o.cfg (o.style.deep k) else Tr.ok).txt = (if idx ≠ 0 then ',' :: o.gap k else []) := by
      split
      · rw [txt_seq (by simp), trSep_txt]; simp
      · rfl
    simp only [trVals, seq_ok, hc, Bool.true_and, Bool.and_eq_true] at hok
    have e : (trVals u o.cfg idx (v :: r) (o.style.deep k)).txt = (if idx ≠ 0 then ',' :: o.gap k else []) ++
        ((trValue u o.cfg v (o.style.deep k)).txt ++ (trVals u o.cfg (idx + 1) r (o.style.deep k)).txt) := by
      simp only [trVals]
      rw [txt_seq hc, hct, txt_seq hok.1]
    have hv := ih v (by simp) hok.1
    cases r with
    | nil =>
      refine ⟨_, ?_, e⟩
      simpa [trVals] using Shown.val1 hv
    | cons p2 r2 =>
      obtain ⟨s, hs, hst⟩ := ihr (idx + 1) (by simp) (fun p hp => ih p (by simp [hp])) hok.2
      refine ⟨_, ?_, e⟩
      have := Shown.valCons hv hs
      rw [hst]
      simpa using this

theorem named_shown (k : Nat) (fs : List (Str × Value T))
    (ih : ∀ p ∈ fs, ∀ k, (trValue u o.cfg p.2 (o.style.deep k)).2 = true → Shown u o k (.val p.2) (trValue u o.cfg p.2 (o.style.deep k)).txt)
    (hok : (trComposite u o.cfg (.named fs) (o.style.deep k)).2 = true) :
    Shown u o k (.comp (.named fs)) (trComposite u o.cfg (.named fs) (o.style.deep k)).txt := by
  cases fs with
  | nil => exact .namedEmpty
  | cons p r =>
    simp only [trComposite, List.isEmpty_cons, Bool.false_eq_true, if_false, seq_ok, ok_w, ok_sep, Bool.true_and,
      Bool.and_true, Style.deep_inc] at hok ⊢
    obtain ⟨s, hs, hst⟩ := fields_shown o (k + 1) (p :: r) 0 (by simp) (fun p hp => ih p hp _) hok
    have := Shown.named hs
    rw [txt_seq (by simp), txt_seq (by simp), txt_seq hok, txt_seq (by simp), hst, trSep_txt, trSep_txt]
    simpa using this

theorem unnamed_shown (k : Nat) (fs : List (Value T))
    (ih : ∀ p ∈ fs, ∀ k, (trValue u o.cfg p (o.style.deep k)).2 = true → Shown u o k (.val p) (trValue u o.cfg p (o.style.deep k)).txt)
    (hok : (trComposite u o.cfg (.unnamed fs) (o.style.deep k)).2 = true) :
    Shown u o k (.comp (.unnamed fs)) (trComposite u o.cfg (.unnamed fs) (o.style.deep k)).txt := by
  cases fs with
  | nil => exact .unnamedEmpty
  | cons p r =>
    simp only [trComposite, List.isEmpty_cons, Bool.false_eq_true, if_false, seq_ok, ok_w, ok_nl, Bool.true_and,
      Bool.and_true, Style.deep_inc] at hok ⊢
    obtain ⟨s, hs, hst⟩ := vals_shown o (k + 1) (p :: r) 0 (by simp) (fun p hp => ih p hp _) hok
    have := Shown.unnamed hs
    rw [txt_seq (by simp), txt_seq (by simp), txt_seq hok, txt_seq (by simp), hst, trNl_txt, trNl_txt]
    simpa using this

theorem value_shown (v : Value T) : ∀ k, (trValue u o.cfg v (o.style.deep k)).2 = true → Shown u o k (.val v) (trValue u o.cfg v (o.style.deep k)).txt := by
  have step : ∀ (d : ValueDef T) (c : T), (∀ k, (trValueDef u o.cfg d (o.style.deep k)).2 = true →
      Shown u o k (.dflt d) (trValueDef u o.cfg d (o.style.deep k)).txt) →
      ∀ k, (trValue u o.cfg (.mk d c) (o.style.deep k)).2 = true → Shown u o k (.val (.mk d c)) (trValue u o.cfg (.mk d c) (o.style.deep k)).txt := by
    intro d c h k hok
    simp only [trValue, seq_ok, Bool.and_eq_true] at hok ⊢
    rw [txt_seq hok.1, (context_txt o c).2]
    rcases cust_txt o (.mk d c) with ⟨h1, h2⟩ | ⟨t, h1, h2, -⟩
    · simp only [h2] at hok ⊢; exact .default h1 (h k hok.2)
    · simp only [h2]; exact .custom h1
  induction v using Value.ind with
  | named fs c ih =>
    refine step _ _ (fun k hok => ?_)
    simp only [trValueDef] at hok ⊢
    exact .composite (named_shown o k fs ih hok)
  | unnamed fs c ih =>
    refine step _ _ (fun k hok => ?_)
    simp only [trValueDef] at hok ⊢
    exact .composite (unnamed_shown o k fs ih hok)
  | vnamed n fs c ih =>
    refine step _ _ (fun k hok => ?_)
    simp only [trValueDef, trVariant, seq_ok, ok_variantName, ok_space, Bool.true_and] at hok ⊢
    have := Shown.variant ((shownVariant_iff (n := n)).2 rfl) (named_shown o k fs ih hok)
    rw [txt_seq (by simp), txt_seq (by simp), trSpace_txt]
    simpa using this
  | vunnamed n fs c ih =>
    refine step _ _ (fun k hok => ?_)
    simp only [trValueDef, trVariant, seq_ok, ok_variantName, ok_space, Bool.true_and] at hok ⊢
    have := Shown.variant ((shownVariant_iff (n := n)).2 rfl) (unnamed_shown o k fs ih hok)
    rw [txt_seq (by simp), txt_seq (by simp), trSpace_txt]
    simpa using this
  | bits b c =>
    refine step _ _ (fun k hok => ?_)
    simp only [trValueDef, bits_txt]
    exact Shown.bits
  | prim p c =>
    refine step _ _ (fun k hok => ?_)
    simp only [trValueDef] at hok ⊢
    exact prim_shown hok

/-- The writes for a category, after its separator. -/
def trCat (u : Uni) (C : TrCfg T) (st : Style) : ShowCat T → Nat → Tr
  | .val v, _ => trValue u C v st
  | .dflt d, _ => trValueDef u C d st
  | .comp c, _ => trComposite u C c st
  | .fields fs, idx => trFields u C idx fs st
  | .vals vs, idx => trVals u C idx vs st

/-- What goes before a list of fields or values that follows others. -/
def ShowCat.comma (o : FmtOpts T) (k idx : Nat) : ShowCat T → Str
  | .fields _ => if idx ≠ 0 then ',' :: o.gap k else []
  | .vals _ => if idx ≠ 0 then ',' :: o.gap k else []
  | _ => []

theorem comma_ok (k idx : Nat) : (if idx ≠ 0 then Tr.w [','] >+> trSep o.cfg (o.style.deep k) else Tr.ok).2 = true ∧
    (if idx ≠ 0 then Tr.w [','] >+> trSep o.cfg (o.style.deep k) else Tr.ok).txt = (if idx ≠ 0 then ',' :: o.gap k else []) := by
  split
  · rw [txt_seq (by simp), trSep_txt]; simp
  · exact ⟨rfl, rfl⟩

theorem shown_cat {k : Nat} {cat : ShowCat T} {s : Str} (h : Shown u o k cat s) (idx : Nat) :
    (trCat u o.cfg (o.style.deep k) cat idx).2 = true ∧ (trCat u o.cfg (o.style.deep k) cat idx).txt = cat.comma o k idx ++ s ∧
      (cat = .fields [] → False) ∧ (cat = .vals [] → False) := by
  induction h generalizing idx with
  | @custom k d c s h =>
    rcases cust_txt o (.mk d c) with ⟨h1, h2⟩ | ⟨t, h1, h2, h3⟩
    · rw [h1] at h; cases h
    · rw [h1] at h; cases h
      simp only [trCat, trValue, h2, ShowCat.comma, seq_ok, (context_txt o c).1, h3, txt_seq (context_txt o c).1, (context_txt o c).2]
      simp
  | @default k d c s hn h ih =>
    rcases cust_txt o (.mk d c) with ⟨h1, h2⟩ | ⟨t, h1, h2, h3⟩
    · obtain ⟨i1, i2, -⟩ := ih 0
      simp only [trCat, ShowCat.comma, List.nil_append] at i1 i2
      simp only [trCat, trValue, h2, ShowCat.comma, seq_ok, (context_txt o c).1, i1, txt_seq (context_txt o c).1, (context_txt o c).2, i2]
      simp
    · rw [h1] at hn; cases hn
  | true_ => simp [trCat, trValueDef, trPrimitive, ShowCat.comma]
  | false_ => simp [trCat, trValueDef, trPrimitive, ShowCat.comma]
  | char h => obtain ⟨h1, h2⟩ := shown_prim (u := u) (k := 0) (Shown.char (o := o) h); simp [trCat, trValueDef, ShowCat.comma, h1, h2]
  | string h => obtain ⟨h1, h2⟩ := shown_prim (u := u) (k := 0) (Shown.string (o := o) h); simp [trCat, trValueDef, ShowCat.comma, h1, h2]
  | @unsigned _ n => obtain ⟨h1, h2⟩ := shown_prim (u := u) (k := 0) (Shown.unsigned (o := o) (n := n)); simp [trCat, trValueDef, ShowCat.comma, h1, h2]
  | nonneg h => obtain ⟨h1, h2⟩ := shown_prim (u := u) (k := 0) (Shown.nonneg (o := o) h); simp [trCat, trValueDef, ShowCat.comma, h1, h2]
  | negative h h' => obtain ⟨h1, h2⟩ := shown_prim (u := u) (k := 0) (Shown.negative (o := o) h h'); simp [trCat, trValueDef, ShowCat.comma, h1, h2]
  | bits => simp [trCat, trValueDef, ShowCat.comma, bits_txt]
  | composite h ih =>
    obtain ⟨i1, i2, -⟩ := ih 0
    simp only [trCat, ShowCat.comma, List.nil_append] at i1 i2
    simp [trCat, trValueDef, ShowCat.comma, i1, i2]
  | variant hn h ih =>
    obtain ⟨i1, i2, -⟩ := ih 0
    simp only [trCat, ShowCat.comma, List.nil_append] at i1 i2
    simp only [trCat, trValueDef, trVariant, ShowCat.comma, seq_ok, ok_variantName, ok_space, i1]
    rw [txt_seq (by simp), txt_seq (by simp), trSpace_txt, i2, shownVariant_iff.1 hn]
    simp
  | namedEmpty => simp [trCat, trComposite, ShowCat.comma]
  | unnamedEmpty => simp [trCat, trComposite, ShowCat.comma]
  | @named k fs s h ih =>
    obtain ⟨i1, i2, i3, -⟩ := ih 0
    simp only [trCat, ShowCat.comma, ne_eq, not_true, if_false, List.nil_append] at i1 i2
    cases fs with
    | nil => exact (i3 rfl).elim
    | cons p r =>
      simp only [trCat, ShowCat.comma, trComposite, List.isEmpty_cons, Bool.false_eq_true, if_false, seq_ok, ok_w, ok_sep, Bool.true_and,
        Bool.and_true, Style.deep_inc, i1]
      rw [txt_seq (by simp), txt_seq (by simp), txt_seq i1, txt_seq (by simp), i2, trSep_txt, trSep_txt]
      simp
  | @unnamed k fs s h ih =>
    obtain ⟨i1, i2, -, i3⟩ := ih 0
    simp only [trCat, ShowCat.comma, ne_eq, not_true, if_false, List.nil_append] at i1 i2
    cases fs with
    | nil => exact (i3 rfl).elim
    | cons p r =>
      simp only [trCat, ShowCat.comma, trComposite, List.isEmpty_cons, Bool.false_eq_true, if_false, seq_ok, ok_w, ok_nl, Bool.true_and,
        Bool.and_true, Style.deep_inc, i1]
      rw [txt_seq (by simp), txt_seq (by simp), txt_seq i1, txt_seq (by simp), i2, trNl_txt, trNl_txt]
      simp
  | @field1 k n v s t hn h ih =>
    obtain ⟨i1, i2, -⟩ := ih 0
    simp only [trCat, ShowCat.comma, List.nil_append] at i1 i2
    obtain ⟨hc, hct⟩ := comma_ok o k idx
    simp only [trCat, ShowCat.comma, trFields, seq_ok, hc, ok_name, ok_w, ok_space, i1]
    rw [txt_seq hc, hct, txt_seq (by simp), txt_seq (by simp), txt_seq (by simp), txt_seq i1, trSpace_txt, i2, shownName_iff.1 hn]
    simp
  | @fieldCons k n v s t fs r hn h hs ih ihs =>
    obtain ⟨i1, i2, -⟩ := ih 0
    obtain ⟨j1, j2, -⟩ := ihs (idx + 1)
    simp only [trCat, ShowCat.comma, List.nil_append] at i1 i2 j1 j2
    obtain ⟨hc, hct⟩ := comma_ok o k idx
    simp only [trCat, ShowCat.comma, trFields, seq_ok, hc, ok_name, ok_w, ok_space, i1, j1]
    rw [txt_seq hc, hct, txt_seq (by simp), txt_seq (by simp), txt_seq (by simp), txt_seq i1, trSpace_txt, i2, j2, shownName_iff.1 hn]
    simp
  | @val1 k v s h ih =>
    obtain ⟨i1, i2, -⟩ := ih 0
    simp only [trCat, ShowCat.comma, List.nil_append] at i1 i2
    obtain ⟨hc, hct⟩ := comma_ok o k idx
    simp only [trCat, ShowCat.comma, trVals, seq_ok, hc, i1]
    rw [txt_seq hc, hct, txt_seq i1, i2]
    simp
  | @valCons k v s vs t h hs ih ihs =>
    obtain ⟨i1, i2, -⟩ := ih 0
    obtain ⟨j1, j2, -⟩ := ihs (idx + 1)
    simp only [trCat, ShowCat.comma, List.nil_append] at i1 i2 j1 j2
    obtain ⟨hc, hct⟩ := comma_ok o k idx
    simp only [trCat, ShowCat.comma, trVals, seq_ok, hc, i1, j1]
    rw [txt_seq hc, hct, txt_seq i1, i2, j2]
    simp

theorem shown_iff {v : Value T} {s : Str} : Shown u o 0 (.val v) s ↔ (trValue u o.cfg v o.style).2 = true ∧ (trValue u o.cfg v o.style).txt = s := by
  constructor
  · intro h
    obtain ⟨h1, h2, -⟩ := shown_cat o h 0
    simp only [trCat, ShowCat.comma, Style.deep_zero, List.nil_append] at h1 h2
    exact ⟨h1, h2⟩
  · rintro ⟨h1, rfl⟩
    have := value_shown (u := u) o v 0
    rw [Style.deep_zero] at this
    exact this h1

theorem exposed_iff (v : Value T) : ∀ k, (trValue u o.cfg v (o.style.deep k)).2 = true ↔ ¬ Exposed256 o v := by
  have step : ∀ (d : ValueDef T) (c : T) k, (trValue u o.cfg (.mk d c) (o.style.deep k)).2 = true ↔
      o.custom (.mk d c) ≠ none ∨ (trValueDef u o.cfg d (o.style.deep k)).2 = true := by
    intro d c k
    simp only [trValue, seq_ok, (context_txt o c).1, Bool.true_and]
    rcases cust_txt o (.mk d c) with ⟨h1, h2⟩ | ⟨t, h1, h2, h3⟩
    · simp [h1, h2]
    · simp [h1, h2, h3]
  have kids : ∀ (d : ValueDef T) (c : T) (f : Composite T), (Value.mk d c).fields? = some f →
      ((o.custom (.mk d c) ≠ none ∨ ∀ w ∈ f.vals, ¬ Exposed256 o w) ↔ ¬ Exposed256 o (.mk d c)) := by
    intro d c f hf
    constructor
    · intro h h2
      cases h2 with
      | here hc hp => rcases hp with ⟨b, rfl | rfl⟩ <;> cases hf
      | part hc hf' hw h3 =>
        rw [hf] at hf'; cases hf'
        rcases h with h | h
        · exact h hc
        · exact h _ hw h3
    · intro h
      by_cases hc : o.custom (.mk d c) = none
      · exact .inr fun w hw hx => h (.part hc hf hw hx)
      · exact .inl hc
  induction v using Value.ind with
  | named fs c ih =>
    intro k
    rw [step, ← kids _ _ _ rfl, trValueDef, comp_named_ok, Style.deep_inc]
    refine or_congr Iff.rfl ?_
    simp only [Composite.vals, List.mem_map]
    constructor
    · rintro h w ⟨p, hp, rfl⟩; exact (ih p hp _).1 (h p hp)
    · intro h p hp; exact (ih p hp _).2 (h _ ⟨p, hp, rfl⟩)
  | unnamed fs c ih =>
    intro k
    rw [step, ← kids _ _ _ rfl, trValueDef, comp_unnamed_ok, Style.deep_inc]
    refine or_congr Iff.rfl ?_
    exact ⟨fun h w hw => (ih w hw _).1 (h w hw), fun h w hw => (ih w hw _).2 (h w hw)⟩
  | vnamed n fs c ih =>
    intro k
    rw [step, ← kids _ _ _ rfl, trValueDef, trVariant]
    simp only [seq_ok, ok_variantName, ok_space, Bool.true_and]
    rw [comp_named_ok, Style.deep_inc]
    refine or_congr Iff.rfl ?_
    simp only [Composite.vals, List.mem_map]
    constructor
    · rintro h w ⟨p, hp, rfl⟩; exact (ih p hp _).1 (h p hp)
    · intro h p hp; exact (ih p hp _).2 (h _ ⟨p, hp, rfl⟩)
  | vunnamed n fs c ih =>
    intro k
    rw [step, ← kids _ _ _ rfl, trValueDef, trVariant]
    simp only [seq_ok, ok_variantName, ok_space, Bool.true_and]
    rw [comp_unnamed_ok, Style.deep_inc]
    refine or_congr Iff.rfl ?_
    exact ⟨fun h w hw => (ih w hw _).1 (h w hw), fun h w hw => (ih w hw _).2 (h w hw)⟩
  | bits b c =>
    intro k
    rw [step, trValueDef]
    simp only [ok_bitseq, or_true, true_iff]
    intro h
    cases h with
    | part hc hf hw h3 => cases hf
  | prim p c =>
    intro k
    rw [step, trValueDef]
    have : (trPrimitive p).2 = true ↔ ¬ ∃ b, p = .u256 b ∨ p = .i256 b := by
      cases p with
      | bool b => cases b <;> simp [trPrimitive]
      | _ => simp [trPrimitive]
    rw [this]
    constructor
    · intro h h2
      cases h2 with
      | here hc hp =>
        rcases h with h | h
        · exact h hc
        · exact h hp
      | part hc hf hw h3 => cases hf
    · intro h
      by_cases hc : o.custom (.mk (.primitive p) c) = none
      · exact .inr fun hp => h (.here hc hp)
      · exact .inl hc
end

end SV
