import Verif.Proofs.Format
import Verif.Proofs.ParseComplete
/-
What the formatter writes is a text of the value.
-/
namespace SV

variable {T W : Type} {u : Uni}

/-- All that is written. -/
def Tr.txt (t : Tr) : Str := t.1.flatten

@[simp] theorem txt_w (s : Str) : (Tr.w s).txt = s := by simp [Tr.txt, Tr.w]
@[simp] theorem ok_w (s : Str) : (Tr.w s).2 = true := rfl
@[simp] theorem txt_ok : Tr.ok.txt = [] := rfl
@[simp] theorem ok_ok : Tr.ok.2 = true := rfl
@[simp] theorem seq_ok (a b : Tr) : (a >+> b).2 = (a.2 && b.2) := by
  unfold Tr.seq; split <;> simp_all
theorem txt_seq {a b : Tr} (h : a.2 = true) : (a >+> b).txt = a.txt ++ b.txt := by
  simp [Tr.seq, h, Tr.txt]

theorem txts (a b : Tr) : (a >+> b).txt = a.txt ++ (if a.2 then b.txt else []) := by
  cases h : a.2 <;> simp [Tr.seq, h, Tr.txt]

/-! ### Successful and failing parts -/

@[simp] theorem ok_indents (s : Str) (n : Nat) : (trIndents s n).2 = true := by
  induction n with
  | zero => rfl
  | succ n ih => simp [trIndents, ih]
@[simp] theorem ok_newline (C : TrCfg T) (n : Nat) : (trNewline C n).2 = true := by simp [trNewline]
@[simp] theorem ok_space (st : Style) : (trSpace st).2 = true := by cases st <;> rfl
@[simp] theorem ok_nl (C : TrCfg T) (st : Style) : (trNl C st).2 = true := by cases st <;> simp [trNl]
@[simp] theorem ok_sep (C : TrCfg T) (st : Style) : (trSep C st).2 = true := by cases st <;> simp [trSep]
@[simp] theorem ok_escaped (c : Char) : (trEscaped c).2 = true := by unfold trEscaped; split <;> simp
@[simp] theorem ok_chars (s : Str) : (trChars s).2 = true := by
  induction s with
  | nil => rfl
  | cons c s ih => simp [trChars, ih]
@[simp] theorem ok_string (s : Str) : (trString s).2 = true := by simp [trString]
@[simp] theorem ok_char (c : Char) : (trChar c).2 = true := by simp [trChar]
@[simp] theorem ok_bits (bs : List Bool) : (trBits bs).2 = true := by
  induction bs with
  | nil => rfl
  | cons c s ih => cases c <;> simp [trBits, ih]
@[simp] theorem ok_bitseq (bs : List Bool) : (trBitSequence bs).2 = true := by simp [trBitSequence]
@[simp] theorem ok_name (n : Str) : (trName u n).2 = true := by unfold trName; split <;> simp
@[simp] theorem ok_variantName (n : Str) : (trVariantName u n).2 = true := by unfold trVariantName; split <;> simp
@[simp] theorem ok_i128 (n : I128) : (trI128 n).2 = true := by unfold trI128; split <;> simp

/-! ### Whitespace -/

theorem Ws.append {a b : Str} (ha : Ws u a) (hb : Ws u b) : Ws u (a ++ b) := by
  intro c hc; rcases List.mem_append.1 hc with h | h
  · exact ha c h
  · exact hb c h

theorem ws_newline : u.ws '\n' = true := by rw [u.ws_ascii _ (by decide)]; decide
theorem ws_space : u.ws ' ' = true := by rw [u.ws_ascii _ (by decide)]; decide

theorem ws_one {c : Char} (h : u.ws c = true) : Ws u [c] := by intro d hd; simp at hd; subst hd; exact h
theorem ws_nil : Ws u [] := by intro d hd; cases hd

theorem txt_indents (s : Str) (n : Nat) : (trIndents s n).txt = rep s n := by
  induction n with
  | zero => rfl
  | succ n ih => simp [trIndents, txts, rep, ih]

theorem txt_newline (C : TrCfg T) (n : Nat) :
    (trNewline C n).txt = '\n' :: (C.leadingIndent ++ rep C.indentBy n) := by
  simp [trNewline, txts, txt_indents]

theorem ws_rep {s : Str} (h : Ws u s) (n : Nat) : Ws u (rep s n) := by
  induction n with
  | zero => exact ws_nil
  | succ n ih => exact h.append ih

section
variable {C : TrCfg T} (hi : Ws u C.indentBy) (hl : Ws u C.leadingIndent)
include hi hl

theorem ws_tr_newline (n : Nat) : Ws u (trNewline C n).txt := by
  rw [txt_newline]
  exact (ws_one ws_newline).append (hl.append (ws_rep hi n))

theorem ws_nl (st : Style) : Ws u (trNl C st).txt := by
  cases st with
  | pretty n => exact ws_tr_newline hi hl n
  | normal => exact ws_nil
  | compact => exact ws_nil

theorem ws_sep (st : Style) : Ws u (trSep C st).txt := by
  cases st with
  | pretty n => exact ws_tr_newline hi hl n
  | normal => exact ws_one ws_space
  | compact => exact ws_nil
end

theorem ws_trSpace (st : Style) : Ws u (trSpace st).txt := by
  cases st with
  | pretty n => exact ws_one ws_space
  | normal => exact ws_one ws_space
  | compact => exact ws_nil

/-! ### Literals -/

theorem toEscapeCode_some {c e : Char} (h : toEscapeCode c = some e) : Escape e c := by
  unfold toEscapeCode at h
  repeat' split at h
  all_goals (try (cases h; subst_vars; constructor))
  cases h

theorem toEscapeCode_none {c : Char} (h : toEscapeCode c = none) : c ≠ '\\' ∧ c ≠ '"' := by
  unfold toEscapeCode at h
  repeat' split at h
  all_goals (try cases h)
  exact ⟨‹_›, ‹_›⟩

theorem chars_body (s : Str) : StrBody s (trChars s).txt := by
  induction s with
  | nil => exact .nil
  | cons c s ih =>
    unfold trChars
    rw [txt_seq (by simp)]
    unfold trEscaped
    cases h : toEscapeCode c with
    | none => simpa using StrBody.plain (toEscapeCode_none h).1 (toEscapeCode_none h).2 ih
    | some e => simpa [txts] using StrBody.esc (toEscapeCode_some h) ih

theorem string_lit (s : Str) : StrLit s (trString s).txt := by
  have := StrLit.mk (chars_body s)
  simpa [trString, txts] using this

theorem char_lit (c : Char) : CharLit c (trChar c).txt := by
  unfold trChar trEscaped
  cases h : toEscapeCode c with
  | none => simpa [txts] using CharLit.plain (toEscapeCode_none h).1
  | some e => simpa [txts] using CharLit.esc (toEscapeCode_some h)

theorem bits_txt (bs : List Bool) : (trBitSequence bs).txt = '<' :: bitChars bs ++ ['>'] := by
  have : (trBits bs).txt = bitChars bs := by
    induction bs with
    | nil => rfl
    | cons c s ih => cases c <;> simp [trBits, txts, ih, bitChars]
  simp [trBitSequence, txts, this]

theorem digitChar_val {n : Nat} (h : n < 10) : (digitChar n).toNat = 48 + n := by
  have : n = 0 ∨ n = 1 ∨ n = 2 ∨ n = 3 ∨ n = 4 ∨ n = 5 ∨ n = 6 ∨ n = 7 ∨ n = 8 ∨ n = 9 := by omega
  rcases this with rfl | rfl | rfl | rfl | rfl | rfl | rfl | rfl | rfl | rfl <;> rfl

theorem digitChar_isDigit {n : Nat} (h : n < 10) : isDigit (digitChar n) = true := by
  have := digitChar_val h
  simp only [isDigit, this]
  have h1 : ('0' : Char).toNat = 48 := rfl
  have h2 : ('9' : Char).toNat = 57 := rfl
  rw [h1, h2]
  simp; omega

theorem decDigits_val : ∀ (fuel n : Nat), 0 < fuel → n < 10 ^ fuel → DecVal (decDigits fuel n) n := by
  intro fuel
  induction fuel with
  | zero => intro n h; omega
  | succ fuel ih =>
    intro n _ hn
    unfold decDigits
    split
    · next h =>
      have := DecVal.single (digitChar_isDigit h)
      rwa [digitChar_val h, Nat.add_sub_cancel_left] at this
    · next h =>
      have hf : 0 < fuel := by
        rcases Nat.eq_zero_or_pos fuel with h0 | h0
        · subst h0; simp at hn; omega
        · exact h0
      have hd : n / 10 < 10 ^ fuel := by
        rw [Nat.div_lt_iff_lt_mul (by decide)]; rw [Nat.pow_succ] at hn; exact hn
      have hm : n % 10 < 10 := Nat.mod_lt _ (by decide)
      have := DecVal.digit (ih (n / 10) hf hd) (digitChar_isDigit hm)
      rw [digitChar_val hm, Nat.add_sub_cancel_left, Nat.div_add_mod] at this
      exact this

theorem dec_u128 (n : U128) : DecVal (decDigits 39 n.val) n.val :=
  decDigits_val 39 n.val (by decide) (Nat.lt_trans n.lt (by decide))

theorem dec_i128 (n : I128) : DecVal (decDigits 39 n.val.natAbs) n.val.natAbs := by
  refine decDigits_val 39 _ (by decide) (Nat.lt_of_le_of_lt (m := 2 ^ 127) ?_ (by decide))
  have := n.ge; have := n.lt; omega

theorem prim_text {X : Value Unit → Str → Prop} {p : Primitive} (h : PrimOk p) :
    Txt u X (.blt (.mk (.primitive p) ())) (trPrimitive p).txt := by
  cases p with
  | bool b =>
    cases b
    · simpa [trPrimitive, Value.bool] using Txt.false_ (u := u) (X := X)
    · simpa [trPrimitive, Value.bool] using Txt.true_ (u := u) (X := X)
  | char c => exact .char (char_lit c)
  | string s => exact .string (string_lit s)
  | u128 n => simpa [trPrimitive, Value.primitive] using Txt.number (u := u) (X := X) (.plain (dec_u128 n))
  | i128 n =>
    have h : n.val < 0 := h
    have := Txt.number (u := u) (X := X) (.minus (n := n) (dec_i128 n) (by omega))
    simpa [trPrimitive, trI128, h, txts, Value.primitive] using this
  | u256 b => exact h.elim
  | i256 b => exact h.elim

theorem isIdent_iff {n : Str} : isIdent u n = true ↔ Ident u n := by
  constructor
  · intro h
    cases n with
    | nil => simp [isIdent] at h
    | cons c cs =>
      simp [isIdent] at h
      exact .mk h.1 (by simpa using h.2)
  · intro h
    cases h with
    | mk hc hcs => simp [isIdent, hc]; simpa using hcs

theorem name_text (n : Str) : FieldName u n (trName u n).txt := by
  unfold trName
  split
  · next h => simpa using FieldName.ident (isIdent_iff.1 h)
  · exact .quoted (string_lit n)

theorem variantName_text {n : Str} (h : NameOk u n) : VariantName u n (trVariantName u n).txt := by
  unfold trVariantName
  split
  · next hi =>
    have hi := isIdent_iff.1 hi
    simpa using VariantName.ident hi (h hi).1 (h hi).2
  · simpa [txts] using VariantName.quoted (u := u) (string_lit n)

/-! ### The induction -/

section
variable {C : TrCfg T} {X : Value Unit → Str → Prop}
  (hi : Ws u C.indentBy) (hl : Ws u C.leadingIndent)
include hi hl

theorem fields_text (st : Style) : ∀ (fs : List (Str × Value T)) (idx : Nat), fs ≠ [] →
    (∀ p ∈ fs, (trValue u C p.2 st).2 = true → Text u X p.2.removeContext (trValue u C p.2 st).txt) →
    (trFields u C idx fs st).2 = true →
    ∃ s, Txt u X (.fields (fs.map fun p => (p.1, p.2.removeContext))) s ∧
      (trFields u C idx fs st).txt = (if idx ≠ 0 then ',' :: (trSep C st).txt else []) ++ s := by
  intro fs
  induction fs with
  | nil => intro idx h; exact absurd rfl h
  | cons p r ihr =>
    intro idx _ ih hok
    obtain ⟨n, v⟩ := p
    have hc : (if idx ≠ 0 then Tr.w [','] >+> trSep C st else Tr.ok).2 = true := by split <;> simp
    have hct : (if idx ≠ 0 then Tr.w [','] >+> trSep C st else Tr.ok).txt =
        (if idx ≠ 0 then ',' :: (trSep C st).txt else []) := by split <;> simp [txts, *]
    simp only [trFields, seq_ok, hc, ok_name, ok_w, ok_space, Bool.true_and, Bool.and_eq_true] at hok
    have e : (trFields u C idx ((n, v) :: r) st).txt = (if idx ≠ 0 then ',' :: (trSep C st).txt else []) ++
        ((trName u n).txt ++ ':' :: (trSpace st).txt ++ (trValue u C v st).txt ++ (trFields u C (idx + 1) r st).txt) := by
      simp only [trFields]
      rw [txt_seq hc, hct, txt_seq (by simp), txt_seq (by simp), txt_seq (by simp), txt_seq hok.1]
      simp
    have hv := ih (n, v) (by simp) hok.1
    cases r with
    | nil =>
      refine ⟨_, ?_, e⟩
      have := Txt.field1 (w1 := []) (name_text (u := u) n) ws_nil (ws_trSpace st) hv
      simpa [trFields] using this
    | cons p2 r2 =>
      obtain ⟨s, hs, hst⟩ := ihr (idx + 1) (by simp) (fun p hp => ih p (by simp [hp])) hok.2
      refine ⟨_, ?_, e⟩
      have := Txt.fieldCons (w1 := []) (w3 := []) (name_text (u := u) n) ws_nil (ws_trSpace st) hv ws_nil
        (ws_sep hi hl st) hs
      rw [hst]
      simpa using this

theorem vals_text (st : Style) : ∀ (fs : List (Value T)) (idx : Nat), fs ≠ [] →
    (∀ p ∈ fs, (trValue u C p st).2 = true → Text u X p.removeContext (trValue u C p st).txt) →
    (trVals u C idx fs st).2 = true →
    ∃ s, Txt u X (.vals (fs.map fun p => p.removeContext)) s ∧
      (trVals u C idx fs st).txt = (if idx ≠ 0 then ',' :: (trSep C st).txt else []) ++ s := by
  intro fs
  induction fs with
  | nil => intro idx h; exact absurd rfl h
  | cons v r ihr =>
    intro idx _ ih hok
    have hc : (if idx ≠ 0 then Tr.w [','] >+> trSep C st else Tr.ok).2 = true := by split <;> simp
    have hct : (if idx ≠ 0 then Tr.w [','] >+> trSep C st else Tr.ok).txt =
        (if idx ≠ 0 then ',' :: (trSep C st).txt else []) := by split <;> simp [txts, *]
    simp only [trVals, seq_ok, hc, Bool.true_and, Bool.and_eq_true] at hok
    have e : (trVals u C idx (v :: r) st).txt = (if idx ≠ 0 then ',' :: (trSep C st).txt else []) ++
        ((trValue u C v st).txt ++ (trVals u C (idx + 1) r st).txt) := by
      simp only [trVals]
      rw [txt_seq hc, hct, txt_seq hok.1]
    have hv := ih v (by simp) hok.1
    cases r with
    | nil =>
      refine ⟨_, ?_, e⟩
      simpa [trVals] using Txt.val1 hv
    | cons p2 r2 =>
      obtain ⟨s, hs, hst⟩ := ihr (idx + 1) (by simp) (fun p hp => ih p (by simp [hp])) hok.2
      refine ⟨_, ?_, e⟩
      have := Txt.valCons (w3 := []) hv ws_nil (ws_sep hi hl st) hs
      rw [hst]
      simpa using this

theorem named_text (st : Style) (fs : List (Str × Value T))
    (ih : ∀ p ∈ fs, ∀ st, (trValue u C p.2 st).2 = true → Text u X p.2.removeContext (trValue u C p.2 st).txt)
    (hok : (trComposite u C (.named fs) st).2 = true) :
    Txt u X (.comp (.named (fs.map fun p => (p.1, p.2.removeContext)))) (trComposite u C (.named fs) st).txt := by
  cases fs with
  | nil => simpa [trComposite] using Txt.namedEmpty (u := u) (X := X) ws_nil
  | cons p r =>
    simp only [trComposite, List.isEmpty_cons, Bool.false_eq_true, if_false, seq_ok, ok_w, ok_sep, Bool.true_and,
      Bool.and_true] at hok ⊢
    obtain ⟨s, hs, hst⟩ := fields_text hi hl st.inc (p :: r) 0 (by simp) (fun p hp => ih p hp _) hok
    have := Txt.named (ws_sep hi hl st.inc) (ws_sep hi hl st) hs
    rw [txt_seq (by simp), txt_seq (by simp), txt_seq hok, txt_seq (by simp), hst]
    simpa using this

theorem unnamed_text (st : Style) (fs : List (Value T))
    (ih : ∀ p ∈ fs, ∀ st, (trValue u C p st).2 = true → Text u X p.removeContext (trValue u C p st).txt)
    (hok : (trComposite u C (.unnamed fs) st).2 = true) :
    Txt u X (.comp (.unnamed (fs.map fun p => p.removeContext))) (trComposite u C (.unnamed fs) st).txt := by
  cases fs with
  | nil => simpa [trComposite] using Txt.unnamedEmpty (u := u) (X := X) ws_nil
  | cons p r =>
    simp only [trComposite, List.isEmpty_cons, Bool.false_eq_true, if_false, seq_ok, ok_w, ok_nl, Bool.true_and,
      Bool.and_true] at hok ⊢
    obtain ⟨s, hs, hst⟩ := vals_text hi hl st.inc (p :: r) 0 (by simp) (fun p hp => ih p hp _) hok
    have := Txt.unnamed (ws_nl hi hl st.inc) (ws_nl hi hl st) hs
    rw [txt_seq (by simp), txt_seq (by simp), txt_seq hok, txt_seq (by simp), hst]
    simpa using this

theorem value_text (hctx : C.ctx = none)
    (hcust : ∀ v t, C.cust v = some t → Printable u v → t.2 = true → X v.removeContext t.txt)
    (v : Value T) : Printable u v → ∀ st, (trValue u C v st).2 = true →
      Text u X v.removeContext (trValue u C v st).txt := by
  have step : ∀ (d : ValueDef T) (c : T), Printable u (.mk d c) → (∀ st, (trValueDef u C d st).2 = true →
      Txt u X (.blt (Value.removeContext (.mk d c))) (trValueDef u C d st).txt) →
      ∀ st, (trValue u C (.mk d c) st).2 = true → Text u X (Value.removeContext (.mk d c)) (trValue u C (.mk d c) st).txt := by
    intro d c hp h st hok
    simp only [trValue, trContext, hctx, seq_ok_left] at hok ⊢
    cases hc : C.cust (.mk d c) with
    | none => simp only [hc] at hok ⊢; exact .builtin (h st hok)
    | some t => simp only [hc] at hok ⊢; exact .custom (hcust _ _ hc hp hok)
  induction v using Value.ind with
  | named fs c ih =>
    intro hp
    refine step _ _ hp (fun st hok => ?_)
    cases hp with
    | named hp =>
      simp only [trValueDef] at hok ⊢
      have := named_text hi hl st fs (fun p hp' => ih p hp' (hp p hp')) hok
      simpa [Value.removeContext] using Txt.composite this
  | unnamed fs c ih =>
    intro hp
    refine step _ _ hp (fun st hok => ?_)
    cases hp with
    | unnamed hp =>
      simp only [trValueDef] at hok ⊢
      have := unnamed_text hi hl st fs (fun p hp' => ih p hp' (hp p hp')) hok
      simpa [Value.removeContext] using Txt.composite this
  | vnamed n fs c ih =>
    intro hp
    refine step _ _ hp (fun st hok => ?_)
    cases hp with
    | vnamed hn hp =>
      simp only [trValueDef, trVariant, seq_ok, ok_variantName, ok_space, Bool.true_and] at hok ⊢
      have := named_text hi hl st fs (fun p hp' => ih p hp' (hp p hp')) hok
      have := Txt.variant (variantName_text hn) (ws_trSpace st) this
      rw [txt_seq (by simp), txt_seq (by simp)]
      simpa [Value.removeContext, Value.variant] using this
  | vunnamed n fs c ih =>
    intro hp
    refine step _ _ hp (fun st hok => ?_)
    cases hp with
    | vunnamed hn hp =>
      simp only [trValueDef, trVariant, seq_ok, ok_variantName, ok_space, Bool.true_and] at hok ⊢
      have := unnamed_text hi hl st fs (fun p hp' => ih p hp' (hp p hp')) hok
      have := Txt.variant (variantName_text hn) (ws_trSpace st) this
      rw [txt_seq (by simp), txt_seq (by simp)]
      simpa [Value.removeContext, Value.variant] using this
  | bits b c =>
    intro hp
    refine step _ _ hp (fun st hok => ?_)
    simp only [trValueDef, bits_txt]
    simpa [Value.removeContext, Value.bitSequence] using Txt.bits (u := u) (X := X) (bs := b)
  | prim p c =>
    intro hp
    refine step _ _ hp (fun st hok => ?_)
    cases hp with
    | prim hp => simpa [Value.removeContext, trValueDef] using prim_text (u := u) (X := X) hp
end

/-! ### Failure -/

theorem fields_ok (C : TrCfg T) (fs : List (Str × Value T)) (st : Style) : ∀ idx,
    (trFields u C idx fs st).2 = true ↔ ∀ p ∈ fs, (trValue u C p.2 st).2 = true := by
  induction fs with
  | nil => intro idx; simp [trFields]
  | cons p r ih =>
    intro idx
    obtain ⟨n, v⟩ := p
    have hc : (if idx ≠ 0 then Tr.w [','] >+> trSep C st else Tr.ok).2 = true := by split <;> simp
    simp only [trFields, seq_ok, hc, ok_name, ok_w, ok_space, Bool.true_and, Bool.and_eq_true, ih]
    simp

theorem vals_ok (C : TrCfg T) (fs : List (Value T)) (st : Style) : ∀ idx,
    (trVals u C idx fs st).2 = true ↔ ∀ p ∈ fs, (trValue u C p st).2 = true := by
  induction fs with
  | nil => intro idx; simp [trVals]
  | cons v r ih =>
    intro idx
    have hc : (if idx ≠ 0 then Tr.w [','] >+> trSep C st else Tr.ok).2 = true := by split <;> simp
    simp only [trVals, seq_ok, hc, Bool.true_and, Bool.and_eq_true, ih]
    simp

theorem comp_named_ok (C : TrCfg T) (fs : List (Str × Value T)) (st : Style) :
    (trComposite u C (.named fs) st).2 = true ↔ ∀ p ∈ fs, (trValue u C p.2 st.inc).2 = true := by
  cases fs with
  | nil => simp [trComposite]
  | cons p r =>
    simp only [trComposite, List.isEmpty_cons, Bool.false_eq_true, if_false, seq_ok, ok_w, ok_sep, Bool.true_and,
      Bool.and_true, fields_ok]

theorem comp_unnamed_ok (C : TrCfg T) (fs : List (Value T)) (st : Style) :
    (trComposite u C (.unnamed fs) st).2 = true ↔ ∀ p ∈ fs, (trValue u C p st.inc).2 = true := by
  cases fs with
  | nil => simp [trComposite]
  | cons p r =>
    simp only [trComposite, List.isEmpty_cons, Bool.false_eq_true, if_false, seq_ok, ok_w, ok_nl, Bool.true_and,
      Bool.and_true, vals_ok]

theorem plain_ok (ind lead : Str) (v : Value T) : ∀ st, (trValue u (.plain ind lead) v st).2 = true ↔ ¬ Has256 v := by
  induction v using Value.ind with
  | named fs c ih =>
    intro st
    simp only [trValue, trContext, TrCfg.plain, seq_ok_left, trValueDef]
    rw [comp_named_ok]
    constructor
    · intro h h256
      cases h256 with
      | named hp h2 => exact (ih _ hp _).1 (h _ hp) h2
    · intro h p hp; exact (ih p hp _).2 (fun h2 => h (.named hp h2))
  | unnamed fs c ih =>
    intro st
    simp only [trValue, trContext, TrCfg.plain, seq_ok_left, trValueDef]
    rw [comp_unnamed_ok]
    constructor
    · intro h h256
      cases h256 with
      | unnamed hp h2 => exact (ih _ hp _).1 (h _ hp) h2
    · intro h p hp; exact (ih p hp _).2 (fun h2 => h (.unnamed hp h2))
  | vnamed n fs c ih =>
    intro st
    simp only [trValue, trContext, TrCfg.plain, seq_ok_left, trValueDef, trVariant, seq_ok, ok_variantName, ok_space,
      Bool.true_and]
    rw [comp_named_ok]
    constructor
    · intro h h256
      cases h256 with
      | vnamed hp h2 => exact (ih _ hp _).1 (h _ hp) h2
    · intro h p hp; exact (ih p hp _).2 (fun h2 => h (.vnamed hp h2))
  | vunnamed n fs c ih =>
    intro st
    simp only [trValue, trContext, TrCfg.plain, seq_ok_left, trValueDef, trVariant, seq_ok, ok_variantName, ok_space,
      Bool.true_and]
    rw [comp_unnamed_ok]
    constructor
    · intro h h256
      cases h256 with
      | vunnamed hp h2 => exact (ih _ hp _).1 (h _ hp) h2
    · intro h p hp; exact (ih p hp _).2 (fun h2 => h (.vunnamed hp h2))
  | bits b c =>
    intro st
    simp only [trValue, trContext, TrCfg.plain, seq_ok_left, trValueDef, ok_bitseq, true_iff]
    intro h; cases h
  | prim p c =>
    intro st
    simp only [trValue, trContext, TrCfg.plain, seq_ok_left, trValueDef]
    cases p with
    | u256 b => simp [trPrimitive]; exact .u256
    | i256 b => simp [trPrimitive]; exact .i256
    | bool b => cases b <;> (simp [trPrimitive]; intro h; cases h)
    | _ => simp [trPrimitive]; intro h; cases h

theorem Printable.no256 {v : Value T} (h : Printable u v) : ¬ Has256 v := by
  induction h with
  | prim h => intro h2; cases h2 <;> exact h
  | bits => intro h2; cases h2
  | named _ ih => intro h2; cases h2 with | named hp h => exact ih _ hp h
  | unnamed _ ih => intro h2; cases h2 with | unnamed hp h => exact ih _ hp h
  | vnamed _ _ ih => intro h2; cases h2 with | vnamed hp h => exact ih _ hp h
  | vunnamed _ _ ih => intro h2; cases h2 with | vunnamed hp h => exact ih _ hp h

end SV
