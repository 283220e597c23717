import Verif.Proofs.FormatShown
/-
The layout of what the formatter writes.
-/
namespace SV

variable {T W : Type} {u : Uni} {P : Nat → Char → Str → Prop}

/-- Characters with no role in the layout. -/
def PlainChar (u : Uni) (c : Char) : Prop :=
  u.ws c = false ∧ c ≠ ',' ∧ c ≠ '(' ∧ c ≠ ')' ∧ c ≠ '{' ∧ c ≠ '}' ∧ c ≠ '"' ∧ c ≠ '\''

theorem plainChar_ascii {c : Char} (h : c.toNat < 128) (hw : isAsciiWs c = false)
    (h2 : c ≠ ',' ∧ c ≠ '(' ∧ c ≠ ')' ∧ c ≠ '{' ∧ c ≠ '}' ∧ c ≠ '"' ∧ c ≠ '\'') : PlainChar u c :=
  ⟨ws_false_ascii h hw, h2⟩

theorem plainChar_alnum {c : Char} (h : u.alnum c = true ∨ c = '_') : PlainChar u c := by
  rcases h with h | rfl
  · refine ⟨?_, ?_⟩
    · cases hw : u.ws c with
      | false => rfl
      | true => rw [ws_not_alnum hw] at h; cases h
    · refine ⟨?_, ?_, ?_, ?_, ?_, ?_, ?_⟩ <;> (rintro rfl; rw [alnum_ascii (by decide)] at h; revert h; decide)
  · exact plainChar_ascii (by decide) (by decide) (by decide)

theorem plainChar_digit {c : Char} (h : isDigit c = true) : PlainChar u c := by
  apply plainChar_alnum; left; rw [alnum_ascii (isDigit_lt h)]; simp [isAsciiAlnum, h]

/-- How a style lays out brackets and separators, for the check `P`. -/
structure Lay (u : Uni) (C : TrCfg T) (P : Nat → Char → Str → Prop) (Fam : Style → Nat → Prop) : Prop where
  inc : ∀ st d, Fam st d → Fam st.inc (d + 1)
  plain : ∀ c d r, u.ws c = false → c ≠ ',' → c ≠ '(' → c ≠ '{' → P d c r
  space : ∀ st d c r, Fam st d → c ∈ (trSpace st).txt → P d c r
  comma : ∀ st d tail, Fam st d → ¬ ClosesFirst tail → ScanAll P .out d tail →
    ScanAll P .out d (',' :: (trSep C st).txt ++ tail)
  openP : ∀ st d tail, Fam st d → ¬ ClosesFirst tail → ScanAll P .out (d + 1) tail →
    ScanAll P .out d ('(' :: (trNl C st.inc).txt ++ tail)
  openB : ∀ st d tail, Fam st d → ¬ ClosesFirst tail → ScanAll P .out (d + 1) tail →
    ScanAll P .out d ('{' :: (trSep C st.inc).txt ++ tail)
  closeP : ∀ st d tail, Fam st d → ScanAll P .out d tail → ScanAll P .out (d + 1) ((trNl C st).txt ++ ')' :: tail)
  closeB : ∀ st d tail, Fam st d → ScanAll P .out d tail → ScanAll P .out (d + 1) ((trSep C st).txt ++ '}' :: tail)
  emptyP : ∀ d tail, ScanAll P .out d tail → ScanAll P .out d ('(' :: ')' :: tail)
  emptyB : ∀ d tail, ScanAll P .out d tail → ScanAll P .out d ('{' :: '}' :: tail)

theorem PlainChar.step {c : Char} (h : PlainChar u c) : Quote.step .out c = .out := by
  simp [Quote.step, h.2.2.2.2.2.2.1, h.2.2.2.2.2.2.2]
theorem PlainChar.depth {c : Char} (h : PlainChar u c) (d : Nat) : depthStep d c = d := by
  simp [depthStep, h.2.2.1, h.2.2.2.1, h.2.2.2.2.1, h.2.2.2.2.2.1]

/-- A text that changes nothing for the scan after it, and does not begin with a closing bracket. -/
def Seg (P : Nat → Char → Str → Prop) (d : Nat) (s : Str) : Prop :=
  ∀ tail, ScanAll P .out d tail → ScanAll P .out d (s ++ tail)

theorem Seg.append {d : Nat} {a b : Str} (ha : Seg P d a) (hb : Seg P d b) : Seg P d (a ++ b) := by
  intro tail h; rw [List.append_assoc]; exact ha _ (hb _ h)

/-- A text that does not begin with a closing bracket, whatever follows. -/
def Starts (s : Str) : Prop := ∀ tail, ¬ ClosesFirst (s ++ tail)

theorem Starts.append {a : Str} (h : Starts a) (b : Str) : Starts (a ++ b) := by
  intro tail; rw [List.append_assoc]; exact h _
theorem starts_cons {c : Char} {r : Str} (h : c ≠ ')' ∧ c ≠ '}') : Starts (c :: r) := by
  intro tail hc; rcases hc with hc | hc
  · exact h.1 hc
  · exact h.2 hc
theorem PlainChar.starts {c : Char} {r : Str} (h : PlainChar u c) : Starts (c :: r) :=
  starts_cons ⟨h.2.2.2.1, h.2.2.2.2.2.1⟩

section
variable {C : TrCfg T} {Fam : Style → Nat → Prop} (L : Lay u C P Fam)
include L

theorem seg_plain {s : Str} (h : ∀ c ∈ s, PlainChar u c) (d : Nat) : Seg P d s := by
  induction s with
  | nil => intro tail ht; exact ht
  | cons c s ih =>
    intro tail ht
    have hc := h c (by simp)
    refine ⟨fun _ => L.plain c d _ hc.1 hc.2.1 hc.2.2.1 hc.2.2.2.2.1, ?_⟩
    simp only [hc.step, if_true, hc.depth]
    exact ih (fun c h' => h c (by simp [h'])) tail ht

theorem seg_quote {q : Char} {d : Nat} {r : Str} (h : q = '"' ∨ q = '\'') : P d q r := by
  rcases h with rfl | rfl <;>
    exact L.plain _ _ _ (ws_false_ascii (by decide) (by decide)) (by decide) (by decide) (by decide)

theorem scan_body {s t : Str} (h : StrBody s t) (d : Nat) (tail : Str) (ht : ScanAll P .dq d tail) :
    ScanAll P .dq d (t ++ tail) := by
  induction h with
  | nil => exact ht
  | plain h1 h2 _ ih => exact ⟨by simp, by simpa [Quote.step, h1, h2] using ih⟩
  | esc he _ ih => exact ⟨by simp, by simp [Quote.step], by simpa [Quote.step] using ih⟩

theorem seg_strLit {s t : Str} (h : StrLit s t) (d : Nat) : Seg P d t ∧ Starts t := by
  cases h with
  | mk h =>
    refine ⟨?_, starts_cons (by decide)⟩
    intro tail ht
    rw [List.cons_append, List.cons_append, List.append_assoc]
    refine ⟨fun _ => seg_quote L (.inl rfl), ?_⟩
    have : depthStep d '"' = d := rfl
    simp only [this, if_true]
    refine scan_body L h d _ ⟨by simp [Quote.step], ?_⟩
    simpa [Quote.step] using ht

theorem seg_char (c : Char) (d : Nat) : Seg P d (trChar c).txt ∧ Starts (trChar c).txt := by
  have e : (trChar c).txt = '\'' :: ((trEscaped c).txt ++ ['\'']) := by simp [trChar, txts]
  rw [e]
  refine ⟨?_, starts_cons (by decide)⟩
  intro tail ht
  refine ⟨fun _ => seg_quote L (.inr rfl), ?_⟩
  have : depthStep d '\'' = d := rfl
  simp only [this, if_true]
  unfold trEscaped
  cases h : toEscapeCode c with
  | none =>
    have hq : c ≠ '\'' := by
      rintro rfl; revert h; decide
    have hb := (toEscapeCode_none h).1
    simp only [txt_w]
    refine ⟨by simp [Quote.step], by simp [Quote.step, hq, hb], ?_⟩
    simpa [Quote.step, hq, hb] using ht
  | some e =>
    simp only [txts, ok_w, if_true, txt_w]
    refine ⟨by simp [Quote.step], by simp [Quote.step], by simp [Quote.step], ?_⟩
    simpa [Quote.step] using ht

theorem seg_ident {n : Str} (h : Ident u n) (d : Nat) : Seg P d n ∧ Starts n := by
  cases h with
  | mk hc hcs =>
    have h1 := plainChar_alnum (u := u) (.inl (alpha_alnum hc))
    refine ⟨seg_plain L ?_ d, h1.starts⟩
    intro x hx
    rcases List.mem_cons.1 hx with rfl | hx
    · exact h1
    · exact plainChar_alnum (hcs x hx)

theorem seg_name (n : Str) (d : Nat) : Seg P d (trName u n).txt ∧ Starts (trName u n).txt := by
  unfold trName
  split
  · next h => rw [txt_w]; exact seg_ident L (isIdent_iff.1 h) d
  · exact seg_strLit L (string_lit n) d

theorem seg_variantName (n : Str) (d : Nat) : Seg P d (trVariantName u n).txt ∧ Starts (trVariantName u n).txt := by
  unfold trVariantName
  split
  · next h => rw [txt_w]; exact seg_ident L (isIdent_iff.1 h) d
  · have hv : PlainChar u 'v' := plainChar_ascii (by decide) (by decide) (by decide)
    simp only [txts, ok_w, if_true, txt_w]
    refine ⟨Seg.append (seg_plain L (s := ['v']) ?_ d) (seg_strLit L (string_lit n) d).1, hv.starts⟩
    intro c hc; simp at hc; subst hc; exact hv

omit L in
theorem plain_digits {s : Str} {n : Nat} (h : DecVal s n) : ∀ c ∈ s, PlainChar u c := by
  induction h with
  | single hc => intro c h; simp at h; subst h; exact plainChar_digit hc
  | digit _ hc ih =>
    intro c h
    rcases List.mem_append.1 h with h | h
    · exact ih c h
    · simp at h; subst h; exact plainChar_digit hc
  | underscore _ ih =>
    intro c h
    rcases List.mem_append.1 h with h | h
    · exact ih c h
    · simp at h; subst h; exact plainChar_alnum (.inr rfl)

omit L in
theorem _root_.SV.DecVal.length_pos {s : Str} {n : Nat} (h : DecVal s n) : 0 < s.length := by
  cases h <;> simp

theorem seg_digits {s : Str} {n : Nat} (h : DecVal s n) (d : Nat) : Seg P d s ∧ Starts s := by
  have h1 := plain_digits (u := u) h
  refine ⟨seg_plain L h1 d, ?_⟩
  cases s with
  | nil => exact absurd h.length_pos (by simp)
  | cons c r => exact (h1 c (by simp)).starts

theorem seg_prim {p : Primitive} (h : (trPrimitive p).2 = true) (d : Nat) :
    Seg P d (trPrimitive p).txt ∧ Starts (trPrimitive p).txt := by
  cases p with
  | bool b =>
    have h1 : ∀ c ∈ ['t', 'r', 'u', 'e', 'f', 'a', 'l', 's'], PlainChar u c := by
      intro c hc
      simp at hc
      rcases hc with rfl | rfl | rfl | rfl | rfl | rfl | rfl | rfl <;>
        exact plainChar_ascii (by decide) (by decide) (by decide)
    cases b <;> simp only [trPrimitive, txt_w]
    · refine ⟨seg_plain L (fun c hc => h1 c ?_) d, (h1 'f' (by simp)).starts⟩
      simp at hc ⊢; rcases hc with rfl | rfl | rfl | rfl | rfl <;> simp
    · refine ⟨seg_plain L (fun c hc => h1 c ?_) d, (h1 't' (by simp)).starts⟩
      simp at hc ⊢; rcases hc with rfl | rfl | rfl | rfl <;> simp
  | char c => exact seg_char L c d
  | string s => exact seg_strLit L (string_lit s) d
  | u128 n => simp only [trPrimitive, txt_w]; exact seg_digits L (dec_u128 n) d
  | i128 n =>
    simp only [trPrimitive, trI128]
    split
    · have hm : PlainChar u '-' := plainChar_ascii (by decide) (by decide) (by decide)
      simp only [txts, ok_w, if_true, txt_w]
      refine ⟨Seg.append (seg_plain L (s := ['-']) ?_ d) (seg_digits L (dec_i128 n) d).1, hm.starts⟩
      intro c hc; simp at hc; subst hc; exact hm
    · simp only [txt_w]; exact seg_digits L (dec_i128 n) d
  | u256 b => simp [trPrimitive] at h
  | i256 b => simp [trPrimitive] at h

theorem seg_bits (bs : List Bool) (d : Nat) : Seg P d (trBitSequence bs).txt ∧ Starts (trBitSequence bs).txt := by
  rw [bits_txt]
  have h1 : PlainChar u '<' := plainChar_ascii (by decide) (by decide) (by decide)
  have h2 : PlainChar u '>' := plainChar_ascii (by decide) (by decide) (by decide)
  refine ⟨seg_plain L ?_ d, h1.starts⟩
  intro c hc
  simp [bitChars] at hc
  have hc : c = '<' ∨ c = '0' ∨ c = '1' ∨ c = '>' := by
    rcases hc with h | (⟨_, h⟩ | ⟨_, h⟩) | h <;> simp [h.symm, h]
  rcases hc with rfl | rfl | rfl | rfl
  all_goals first | exact h1 | exact h2 | exact plainChar_digit (by decide)

theorem seg_space {st : Style} {d : Nat} (h : Fam st d) : Seg P d (trSpace st).txt := by
  have hs : ∀ c ∈ (trSpace st).txt, c = ' ' := by
    intro c hc; cases st <;> simp [trSpace] at hc <;> exact hc
  have hp := fun c r => L.space st d c r h
  generalize (trSpace st).txt = x at hs hp
  induction x with
  | nil => intro tail ht; exact ht
  | cons c x ih =>
    intro tail ht
    have := hs c (by simp); subst this
    refine ⟨fun _ => hp _ _ (by simp), ?_⟩
    have e1 : Quote.step .out ' ' = .out := by decide
    have e2 : depthStep d ' ' = d := by simp [depthStep]
    simp only [e1, e2, if_true]
    exact ih (fun c hc => hs c (by simp [hc])) (fun c r hc => hp c r (by simp [hc])) tail ht

theorem seg_colon (d : Nat) : Seg P d [':'] := by
  apply seg_plain L
  intro c hc; simp at hc; subst hc; exact plainChar_ascii (by decide) (by decide) (by decide)

theorem seg_fields (st : Style) (d : Nat) (hF : Fam st d) : ∀ (fs : List (Str × Value T)) (idx : Nat), fs ≠ [] →
    (∀ p ∈ fs, (trValue u C p.2 st).2 = true → Seg P d (trValue u C p.2 st).txt ∧ Starts (trValue u C p.2 st).txt) →
    (trFields u C idx fs st).2 = true →
    ∃ s, Seg P d s ∧ Starts s ∧
      (trFields u C idx fs st).txt = (if idx ≠ 0 then ',' :: (trSep C st).txt else []) ++ s := by
  intro fs
  induction fs with
  | nil => intro idx h; exact absurd rfl h
  | cons p r ihr =>
    intro idx _ ih hok
    obtain ⟨n, v⟩ := p
    have hc : (if idx ≠ 0 then Tr.w [','] >+> trSep C st else Tr.ok).2 = true := by split <;> simp
    have hct : (if idx ≠ 0 then Tr.w [','] >+> trSep C st else Tr.ok).txt =
        (if idx ≠ 0 then ',' :: (trSep C st).txt else []) := by split <;> simp [txts, *]
    simp only [trFields, seq_ok, hc, ok_name, ok_w, ok_space, Bool.true_and, Bool.and_eq_true] at hok
    have e : (trFields u C idx ((n, v) :: r) st).txt = (if idx ≠ 0 then ',' :: (trSep C st).txt else []) ++
        ((trName u n).txt ++ ([':'] ++ ((trSpace st).txt ++ ((trValue u C v st).txt ++ (trFields u C (idx + 1) r st).txt)))) := by
      simp only [trFields]
      rw [txt_seq hc, hct, txt_seq (by simp), txt_seq (by simp), txt_seq (by simp), txt_seq hok.1]
      simp
    have hv := ih (n, v) (by simp) hok.1
    refine ⟨_, ?_, (seg_name L n d).2.append _, e⟩
    refine (seg_name L n d).1.append ((seg_colon L d).append ((seg_space L hF).append (hv.1.append ?_)))
    cases r with
    | nil => simp only [trFields]; intro tail ht; exact ht
    | cons p2 r2 =>
      obtain ⟨s, hs, hs2, hst⟩ := ihr (idx + 1) (by simp) (fun p hp => ih p (by simp [hp])) hok.2
      rw [hst]
      intro tail ht
      have := L.comma st d (s ++ tail) hF (hs2 tail) (hs _ ht)
      simpa using this

theorem seg_vals (st : Style) (d : Nat) (hF : Fam st d) : ∀ (fs : List (Value T)) (idx : Nat), fs ≠ [] →
    (∀ p ∈ fs, (trValue u C p st).2 = true → Seg P d (trValue u C p st).txt ∧ Starts (trValue u C p st).txt) →
    (trVals u C idx fs st).2 = true →
    ∃ s, Seg P d s ∧ Starts s ∧
      (trVals u C idx fs st).txt = (if idx ≠ 0 then ',' :: (trSep C st).txt else []) ++ s := by
  intro fs
  induction fs with
  | nil => intro idx h; exact absurd rfl h
  | cons v r ihr =>
    intro idx _ ih hok
    have hc : (if idx ≠ 0 then Tr.w [','] >+> trSep C st else Tr.ok).2 = true := by split <;> simp
    have hct : (if idx ≠ 0 then Tr.w [','] >+> trSep C st else Tr.ok).txt =
        (if idx ≠ 0 then ',' :: (trSep C st).txt else []) := by split <;> simp [txts, *]
    simp only [trVals, seq_ok, hc, Bool.true_and, Bool.and_eq_true] at hok
    have e : (trVals u C idx (v :: r) st).txt = (if idx ≠ 0 then ',' :: (trSep C st).txt else []) ++
        ((trValue u C v st).txt ++ (trVals u C (idx + 1) r st).txt) := by
      simp only [trVals]
      rw [txt_seq hc, hct, txt_seq hok.1]
    have hv := ih v (by simp) hok.1
    refine ⟨_, ?_, hv.2.append _, e⟩
    refine hv.1.append ?_
    cases r with
    | nil => simp only [trVals]; intro tail ht; exact ht
    | cons p2 r2 =>
      obtain ⟨s, hs, hs2, hst⟩ := ihr (idx + 1) (by simp) (fun p hp => ih p (by simp [hp])) hok.2
      rw [hst]
      intro tail ht
      have := L.comma st d (s ++ tail) hF (hs2 tail) (hs _ ht)
      simpa using this

theorem seg_named (st : Style) (d : Nat) (hF : Fam st d) (fs : List (Str × Value T))
    (ih : ∀ p ∈ fs, ∀ st d, Fam st d → (trValue u C p.2 st).2 = true →
      Seg P d (trValue u C p.2 st).txt ∧ Starts (trValue u C p.2 st).txt)
    (hok : (trComposite u C (.named fs) st).2 = true) :
    Seg P d (trComposite u C (.named fs) st).txt ∧ Starts (trComposite u C (.named fs) st).txt := by
  cases fs with
  | nil =>
    simp only [trComposite, List.isEmpty_nil, if_true, txt_w]
    exact ⟨fun tail ht => L.emptyB d tail ht, starts_cons (by decide)⟩
  | cons p r =>
    simp only [trComposite, List.isEmpty_cons, Bool.false_eq_true, if_false, seq_ok, ok_w, ok_sep, Bool.true_and,
      Bool.and_true] at hok ⊢
    obtain ⟨s, hs, hs2, hst⟩ := seg_fields L st.inc (d + 1) (L.inc _ _ hF) (p :: r) 0 (by simp)
      (fun p hp => ih p hp _ _ (L.inc _ _ hF)) hok
    rw [txt_seq (by simp), txt_seq (by simp), txt_seq hok, txt_seq (by simp), hst]
    simp only [txt_w]
    refine ⟨fun tail ht => ?_, starts_cons (by decide)⟩
    have := L.openB st d (s ++ ((trSep C st).txt ++ '}' :: tail)) hF (hs2 _) (hs _ (L.closeB st d tail hF ht))
    simpa using this

theorem seg_unnamed (st : Style) (d : Nat) (hF : Fam st d) (fs : List (Value T))
    (ih : ∀ p ∈ fs, ∀ st d, Fam st d → (trValue u C p st).2 = true →
      Seg P d (trValue u C p st).txt ∧ Starts (trValue u C p st).txt)
    (hok : (trComposite u C (.unnamed fs) st).2 = true) :
    Seg P d (trComposite u C (.unnamed fs) st).txt ∧ Starts (trComposite u C (.unnamed fs) st).txt := by
  cases fs with
  | nil =>
    simp only [trComposite, List.isEmpty_nil, if_true, txt_w]
    exact ⟨fun tail ht => L.emptyP d tail ht, starts_cons (by decide)⟩
  | cons p r =>
    simp only [trComposite, List.isEmpty_cons, Bool.false_eq_true, if_false, seq_ok, ok_w, ok_nl, Bool.true_and,
      Bool.and_true] at hok ⊢
    obtain ⟨s, hs, hs2, hst⟩ := seg_vals L st.inc (d + 1) (L.inc _ _ hF) (p :: r) 0 (by simp)
      (fun p hp => ih p hp _ _ (L.inc _ _ hF)) hok
    rw [txt_seq (by simp), txt_seq (by simp), txt_seq hok, txt_seq (by simp), hst]
    simp only [txt_w]
    refine ⟨fun tail ht => ?_, starts_cons (by decide)⟩
    have := L.openP st d (s ++ ((trNl C st).txt ++ ')' :: tail)) hF (hs2 _) (hs _ (L.closeP st d tail hF ht))
    simpa using this

theorem seg_value (hctx : C.ctx = none) (hcust : ∀ v, C.cust v = none) (v : Value T) : ∀ st d, Fam st d →
    (trValue u C v st).2 = true → Seg P d (trValue u C v st).txt ∧ Starts (trValue u C v st).txt := by
  have step : ∀ (d : ValueDef T) (c : T), (trValue u C (.mk d c)) = (trValueDef u C d) := by
    intro d c; funext st; simp only [trValue, trContext, hctx, seq_ok_left, hcust]
  induction v using Value.ind with
  | named fs c ih =>
    intro st d hF; rw [step]; simp only [trValueDef]; exact seg_named L st d hF fs ih
  | unnamed fs c ih =>
    intro st d hF; rw [step]; simp only [trValueDef]; exact seg_unnamed L st d hF fs ih
  | vnamed n fs c ih =>
    intro st d hF; rw [step]; intro hok
    simp only [trValueDef, trVariant, seq_ok, ok_variantName, ok_space, Bool.true_and] at hok ⊢
    rw [txt_seq (by simp), txt_seq (by simp)]
    exact ⟨(seg_variantName L n d).1.append ((seg_space L hF).append (seg_named L st d hF fs ih hok).1),
      (seg_variantName L n d).2.append _⟩
  | vunnamed n fs c ih =>
    intro st d hF; rw [step]; intro hok
    simp only [trValueDef, trVariant, seq_ok, ok_variantName, ok_space, Bool.true_and] at hok ⊢
    rw [txt_seq (by simp), txt_seq (by simp)]
    exact ⟨(seg_variantName L n d).1.append ((seg_space L hF).append (seg_unnamed L st d hF fs ih hok).1),
      (seg_variantName L n d).2.append _⟩
  | bits b c => intro st d hF; rw [step]; simp only [trValueDef]; intro _; exact seg_bits L b d
  | prim p c => intro st d hF; rw [step]; simp only [trValueDef]; intro hok; exact seg_prim L hok d
end

/-! ### The styles -/

theorem scan_cons {d : Nat} {c : Char} {r : Str} (h : P d c r) (hq : c ≠ '"' ∧ c ≠ '\'') (d' : Nat) (hd : depthStep d c = d')
    (hr : ScanAll P .out d' r) : ScanAll P .out d (c :: r) := by
  refine ⟨fun _ => h, ?_⟩
  have e1 : Quote.step .out c = .out := by simp [Quote.step, hq]
  simpa [e1, hd] using hr

theorem lay_compact (C : TrCfg T) : Lay u C (fun _ c _ => u.ws c = false) (fun st _ => st = .compact) where
  inc := by rintro _ _ rfl; rfl
  plain := by intro c d r h _ _ _; exact h
  space := by rintro _ _ c r rfl h; simp [trSpace] at h
  comma := by
    rintro _ d tail rfl _ h
    exact scan_cons (ws_false_ascii (by decide) (by decide)) (by decide) _ rfl (by simpa [trSep, depthStep] using h)
  openP := by
    rintro _ d tail rfl _ h
    exact scan_cons (ws_false_ascii (by decide) (by decide)) (by decide) _ rfl (by simpa [trNl, Style.inc, depthStep] using h)
  openB := by
    rintro _ d tail rfl _ h
    exact scan_cons (ws_false_ascii (by decide) (by decide)) (by decide) _ rfl (by simpa [trSep, Style.inc, depthStep] using h)
  closeP := by
    rintro _ d tail rfl h
    simp only [trNl, txt_ok, List.nil_append]
    exact scan_cons (ws_false_ascii (by decide) (by decide)) (by decide) _ rfl h
  closeB := by
    rintro _ d tail rfl h
    simp only [trSep, txt_ok, List.nil_append]
    exact scan_cons (ws_false_ascii (by decide) (by decide)) (by decide) _ rfl h
  emptyP := by
    intro d tail h
    exact scan_cons (ws_false_ascii (by decide) (by decide)) (by decide) _ rfl
      (scan_cons (ws_false_ascii (by decide) (by decide)) (by decide) _ rfl h)
  emptyB := by
    intro d tail h
    exact scan_cons (ws_false_ascii (by decide) (by decide)) (by decide) _ rfl
      (scan_cons (ws_false_ascii (by decide) (by decide)) (by decide) _ rfl h)

theorem nows {c : Char} (h : c.toNat < 128) (hw : isAsciiWs c = false) : u.ws c = true → c = ' ' := by
  intro h'; rw [ws_false_ascii h hw] at h'; cases h'

theorem lay_normal (C : TrCfg T) : Lay u C (fun _ c _ => u.ws c = true → c = ' ') (fun st _ => st = .normal) where
  inc := by rintro _ _ rfl; rfl
  plain := by intro c d r h _ _ _ h'; rw [h] at h'; cases h'
  space := by rintro _ _ c r rfl h _; simpa [trSpace] using h
  comma := by
    rintro _ d tail rfl _ h
    exact scan_cons (nows (by decide) (by decide)) (by decide) _ rfl
      (scan_cons (fun _ => rfl) (by decide) _ rfl (by simpa [depthStep] using h))
  openP := by
    rintro _ d tail rfl _ h
    exact scan_cons (nows (by decide) (by decide)) (by decide) _ rfl (by simpa [trNl, Style.inc, depthStep] using h)
  openB := by
    rintro _ d tail rfl _ h
    exact scan_cons (nows (by decide) (by decide)) (by decide) _ rfl
      (scan_cons (fun _ => rfl) (by decide) _ rfl (by simpa [depthStep] using h))
  closeP := by
    rintro _ d tail rfl h
    simp only [trNl, txt_ok, List.nil_append]
    exact scan_cons (nows (by decide) (by decide)) (by decide) _ rfl h
  closeB := by
    rintro _ d tail rfl h
    simp only [trSep, txt_w, List.cons_append, List.nil_append]
    exact scan_cons (fun _ => rfl) (by decide) _ rfl (scan_cons (nows (by decide) (by decide)) (by decide) _ rfl h)
  emptyP := by
    intro d tail h
    exact scan_cons (nows (by decide) (by decide)) (by decide) _ rfl
      (scan_cons (nows (by decide) (by decide)) (by decide) _ rfl h)
  emptyB := by
    intro d tail h
    exact scan_cons (nows (by decide) (by decide)) (by decide) _ rfl
      (scan_cons (nows (by decide) (by decide)) (by decide) _ rfl h)

/-- Characters that may be used in indentation. -/
def IndentChar (c : Char) : Prop :=
  c ≠ '\n' ∧ c ≠ ',' ∧ c ≠ '(' ∧ c ≠ ')' ∧ c ≠ '{' ∧ c ≠ '}' ∧ c ≠ '"' ∧ c ≠ '\''

def PrettyP (lead ind : Str) (d : Nat) (c : Char) (r : Str) : Prop := LineIndented lead ind d c r ∧ LineBroken d c r

theorem prettyP_other {lead ind : Str} {d : Nat} {c : Char} {r : Str} (h1 : c ≠ '\n') (h2 : c ≠ ',') (h3 : c ≠ '(')
    (h4 : c ≠ '{') : PrettyP lead ind d c r :=
  ⟨fun h => absurd h h1, fun h => absurd h h2, fun h => by rcases h with h | h <;> contradiction⟩

theorem scan_indent {lead ind : Str} {s : Str} (h : ∀ c ∈ s, IndentChar c) (d : Nat) (tail : Str)
    (ht : ScanAll (PrettyP lead ind) .out d tail) : ScanAll (PrettyP lead ind) .out d (s ++ tail) := by
  induction s with
  | nil => exact ht
  | cons c s ih =>
    obtain ⟨h1, h2, h3, h4, h5, h6, h7, h8⟩ := h c (by simp)
    refine scan_cons (prettyP_other h1 h2 h3 h5) ⟨h7, h8⟩ _ (by simp [depthStep, h3, h4, h5, h6])
      (ih (fun c hc => h c (by simp [hc])))

theorem mem_rep {c : Char} {s : Str} {n : Nat} (h : c ∈ rep s n) : c ∈ s := by
  induction n with
  | zero => cases h
  | succ n ih => rcases List.mem_append.1 h with h | h
                 · exact h
                 · exact ih h

section
variable {C : TrCfg T} (hi : ∀ c ∈ C.indentBy, IndentChar c) (hl : ∀ c ∈ C.leadingIndent, IndentChar c)
include hi hl

theorem scan_newline {n d : Nat} {tail : Str} (h1 : ClosesFirst tail → d = n + 1) (h2 : ¬ ClosesFirst tail → d = n)
    (ht : ScanAll (PrettyP C.leadingIndent C.indentBy) .out d tail) :
    ScanAll (PrettyP C.leadingIndent C.indentBy) .out d ((trNewline C n).txt ++ tail) := by
  rw [txt_newline]
  refine scan_cons ⟨fun _ => ⟨n, tail, rfl, h1, h2⟩, by simp, by simp⟩ (by decide) _ rfl ?_
  apply scan_indent (lead := C.leadingIndent) (ind := C.indentBy) ?_ d tail ht
  intro c hc
  rcases List.mem_append.1 hc with h | h
  · exact hl c h
  · exact hi c (mem_rep h)

theorem lay_pretty : Lay u C (PrettyP C.leadingIndent C.indentBy) (fun st d => st = .pretty d) where
  inc := by rintro _ _ rfl; rfl
  plain := by
    intro c d r h h1 h2 h3
    refine prettyP_other ?_ h1 h2 h3
    rintro rfl
    have : u.ws '\n' = true := ws_newline
    rw [h] at this; cases this
  space := by
    rintro _ _ c r rfl h
    have : c = ' ' := by simpa [trSpace] using h
    subst this
    exact prettyP_other (by decide) (by decide) (by decide) (by decide)
  comma := by
    rintro _ d tail rfl hc h
    refine scan_cons ⟨fun h => absurd h (by decide), fun _ => ⟨_, by simp [trSep, txt_newline]; rfl⟩, fun h => absurd h (by decide)⟩
      (by decide) _ rfl (scan_newline hi hl (fun h => absurd h hc) (fun _ => rfl) h)
  openP := by
    rintro _ d tail rfl hc h
    refine scan_cons ⟨fun h => absurd h (by decide), fun h => absurd h (by decide), fun _ => .inr ⟨_, by simp [trNl, Style.inc, txt_newline]; rfl⟩⟩
      (by decide) _ rfl (scan_newline hi hl (fun h => absurd h hc) (fun _ => rfl) h)
  openB := by
    rintro _ d tail rfl hc h
    refine scan_cons ⟨fun h => absurd h (by decide), fun h => absurd h (by decide), fun _ => .inr ⟨_, by simp [trSep, Style.inc, txt_newline]; rfl⟩⟩
      (by decide) _ rfl (scan_newline hi hl (fun h => absurd h hc) (fun _ => rfl) h)
  closeP := by
    rintro _ d tail rfl h
    refine scan_newline hi hl (fun _ => rfl) (fun h => absurd (.inl rfl) h) ?_
    exact scan_cons (prettyP_other (by decide) (by decide) (by decide) (by decide)) (by decide) _ rfl h
  closeB := by
    rintro _ d tail rfl h
    refine scan_newline hi hl (fun _ => rfl) (fun h => absurd (.inr rfl) h) ?_
    exact scan_cons (prettyP_other (by decide) (by decide) (by decide) (by decide)) (by decide) _ rfl h
  emptyP := by
    intro d tail h
    refine scan_cons ⟨fun h => absurd h (by decide), fun h => absurd h (by decide), fun _ => .inl (.inl rfl)⟩ (by decide) _ rfl ?_
    exact scan_cons (prettyP_other (by decide) (by decide) (by decide) (by decide)) (by decide) _ rfl h
  emptyB := by
    intro d tail h
    refine scan_cons ⟨fun h => absurd h (by decide), fun h => absurd h (by decide), fun _ => .inl (.inr rfl)⟩ (by decide) _ rfl ?_
    exact scan_cons (prettyP_other (by decide) (by decide) (by decide) (by decide)) (by decide) _ rfl h
end

/-- Scan without depth. -/
theorem scanAll_outside {p : Char → Prop} {q : Quote} {d : Nat} {s : Str} (h : ScanAll (fun _ c _ => p c) q d s) :
    OutsideAll p q s := by
  induction s generalizing q d with
  | nil => trivial
  | cons c s ih => exact ⟨h.1, ih h.2⟩

theorem scanAll_imp {P Q : Nat → Char → Str → Prop} (hPQ : ∀ d c r, P d c r → Q d c r) {q : Quote} {d : Nat} {s : Str}
    (h : ScanAll P q d s) : ScanAll Q q d s := by
  induction s generalizing q d with
  | nil => trivial
  | cons c s ih => exact ⟨fun hq => hPQ _ _ _ (h.1 hq), ih h.2⟩

end SV
