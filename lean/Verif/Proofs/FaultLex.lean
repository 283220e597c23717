import Verif.Spec.Fault
import Verif.Proofs.ParseSound
import Verif.Proofs.ParseErr
/-
Faults in literals: the lexical parsers fail with exactly the faults of Spec/Fault.lean.
-/
namespace SV

variable {u : Uni}

theorem NoHead.cons {p : Char → Prop} {c : Char} {r : Str} : NoHead p (c :: r) ↔ ¬ p c := by
  constructor
  · intro h; exact h c r rfl
  · intro h d r' e; cases e; exact h

theorem NoHead.nil {p : Char → Prop} : NoHead p [] := by intro c r h; cases h

theorem NoHead.mono {p q : Char → Prop} {s : Str} (h : NoHead p s) (hq : ∀ c, q c → p c) : NoHead q s :=
  fun c r e hc => h c r e (hq c hc)

theorem noHead_headNot {p : Char → Bool} {s : Str} : NoHead (fun c => p c = true) s ↔ HeadNot p s := by
  constructor
  · intro h c r e; simpa using h c r e
  · intro h c r e; simpa using h c r e

theorem noHead_eq {d : Char} {s : Str} : NoHead (· = d) s ↔ ∀ r, s ≠ d :: r := by
  constructor
  · intro h r e; exact h d r e rfl
  · intro h c r e hc; subst hc; exact h r e

theorem token_noHead {d : Char} {s : Str} (h : NoHead (· = d) s) (o : Nat) :
    Toks.token d ⟨s, o⟩ = (false, ⟨s, o⟩) := by
  rcases token_cases d ⟨s, o⟩ with ⟨r, h1, _⟩ | ⟨_, h2⟩
  · exact absurd h1 (noHead_eq.1 h r)
  · exact h2

/-! ### chars -/

theorem CharFault.parse {o : Nat} {s : Str} {e : ParseError} (h : CharFault o s e) :
    ∃ t', parseChar ⟨s, o⟩ = (.error (some e), t') := by
  have q : ('\'' : Char).utf8Size = 1 := rfl
  have b : ('\\' : Char).utf8Size = 1 := rfl
  have no : ∀ {c}, (∀ d, ¬ Escape c d) → fromEscapeCode c = none := by
    intro c h
    cases hf : fromEscapeCode c with
    | none => rfl
    | some d => exact absurd (fromEscapeCode_iff.1 hf) (h d)
  cases h with
  | ends => exact ⟨_, rfl⟩
  | escEnds => exact ⟨_, rfl⟩
  | esc h => exact ⟨_, by simp [parseChar, Toks.next, no h, q, b]; rfl⟩
  | @close c r hc h => exact ⟨_, by simp [parseChar, Toks.next, hc, parseCharClose, token_noHead h, q]; rfl⟩
  | @escClose c d r hc h =>
    exact ⟨_, by simp [parseChar, Toks.next, fromEscapeCode_iff.2 hc, parseCharClose, token_noHead h, q, b]; rfl⟩

theorem parseChar_fault {t t' : Toks} {e : Option ParseError} (h : parseChar t = (.error e, t')) :
    (∃ e', e = some e' ∧ CharFault t.off t.rest e') ∨ (e = none ∧ t' = t ∧ ∀ r, t.rest ≠ '\'' :: r) := by
  have q : ('\'' : Char).utf8Size = 1 := rfl
  have b : ('\\' : Char).utf8Size = 1 := rfl
  unfold parseChar at h
  rcases token_cases '\'' t with ⟨r, h1, h2⟩ | ⟨h1, h2⟩
  · left
    rw [h1]
    simp only [h2] at h
    cases r with
    | nil => simp [Toks.next] at h; obtain ⟨rfl, rfl⟩ := h; exact ⟨_, rfl, .ends⟩
    | cons d r =>
      simp only [Toks.next] at h
      split at h
      · next hd =>
        subst hd
        cases r with
        | nil => simp at h; obtain ⟨rfl, rfl⟩ := h; exact ⟨_, rfl, .escEnds⟩
        | cons c r =>
          simp only at h
          cases he : fromEscapeCode c with
          | none =>
            simp [he] at h; obtain ⟨rfl, rfl⟩ := h
            refine ⟨_, rfl, ?_⟩
            refine .esc (fun d hd => ?_)
            rw [fromEscapeCode_iff.2 hd] at he; cases he
          | some c' =>
            simp only [he] at h
            rcases parseCharClose_cases t.off c' ⟨r, t.off + '\''.utf8Size + '\\'.utf8Size + c.utf8Size⟩ with ⟨r', h3, h4⟩ | ⟨h3, h4⟩
            · rw [h4] at h; simp at h
            · rw [h4] at h; simp at h; obtain ⟨rfl, rfl⟩ := h
              exact ⟨_, rfl, .escClose (fromEscapeCode_iff.1 he) (noHead_eq.2 h3)⟩
      · next hd =>
        rcases parseCharClose_cases t.off d ⟨r, t.off + '\''.utf8Size + d.utf8Size⟩ with ⟨r', h3, h4⟩ | ⟨h3, h4⟩
        · rw [h4] at h; simp at h
        · rw [h4] at h; simp at h; obtain ⟨rfl, rfl⟩ := h
          exact ⟨_, rfl, .close hd (noHead_eq.2 h3)⟩
  · right
    simp [h2] at h
    exact ⟨h.1.symm, h.2.symm, h1⟩

/-! ### strings -/

theorem strLoop_body {s b : Str} (h : StrBody s b) (start : Nat) : ∀ (out : Str) (rest : Str) (o : Nat),
    strLoop start out false (b ++ rest) o = strLoop start (out ++ s) false rest (o + utf8Len b) := by
  induction h with
  | nil => intro out rest o; simp
  | @plain c s t h1 h2 h ih =>
    intro out rest o
    simp only [List.cons_append, strLoop, h1, h2, ih, false_and, if_false, Bool.false_eq_true]
    simp; congr 1; omega
  | @esc e d s t he h ih =>
    intro out rest o
    have : ('\\' : Char).utf8Size = 1 := rfl
    simp only [List.cons_append, strLoop, and_self, if_true, fromEscapeCode_iff.2 he, ih, Bool.true_eq_false, and_false, if_false]
    simp [this]; congr 1; omega

theorem StrFault.parse {o : Nat} {s : Str} {e : ParseError} (h : StrFault o s e) :
    ∃ t', parseString ⟨s, o⟩ = (.error (some e), t') := by
  have q : ('"' : Char).utf8Size = 1 := rfl
  have b : ('\\' : Char).utf8Size = 1 := rfl
  have no : ∀ {c}, (∀ d, ¬ Escape c d) → fromEscapeCode c = none := by
    intro c h
    cases hf : fromEscapeCode c with
    | none => rfl
    | some d => exact absurd (fromEscapeCode_iff.1 hf) (h d)
  cases h with
  | @close s b' h =>
    have := strLoop_body h o [] [] (o + 1)
    simp only [List.append_nil] at this
    refine ⟨⟨[], o + 1 + utf8Len b'⟩, ?_⟩
    simp only [parseString, token_eq, q, this, strLoop]
    simp [q, Nat.add_assoc]
  | @escEnds s b' h =>
    have := strLoop_body h o [] ['\\'] (o + 1)
    refine ⟨⟨[], o + 1 + utf8Len b' + 1⟩, ?_⟩
    simp only [parseString, List.cons_append, token_eq, q, this]
    simp [strLoop, q, b, Nat.add_assoc]
  | @esc s b' c r h hc =>
    have := strLoop_body h o [] ('\\' :: c :: r) (o + 1)
    refine ⟨⟨r, o + 1 + utf8Len b' + 1 + c.utf8Size⟩, ?_⟩
    simp only [parseString, List.cons_append, token_eq, q, this]
    simp [strLoop, no hc, q, b, Nat.add_assoc, ParseErrorKind.atOne, ParseErrorKind.between]

theorem strLoop_fault (start : Nat) : ∀ (inp : Str) (out : Str) (o : Nat) (t' : Toks) (esc : Bool) (e : ParseError),
    strLoop start out esc inp o = (.error (some e), t') →
    (∃ s b, (if esc then StrBody s ('\\' :: b) else StrBody s b) ∧ inp = b ∧
      e = (ParseErrorKind.strExpectedClosingQuoteToMatch start).atOne (o + utf8Len b)) ∨
    (∃ s b, (if esc then StrBody s ('\\' :: b) else StrBody s b) ∧ inp = b ++ ['\\'] ∧
      e = (ParseErrorKind.strExpectedClosingQuoteToMatch start).atOne (o + utf8Len (b ++ ['\\']))) ∨
    (esc = true ∧ inp = [] ∧ e = (ParseErrorKind.strExpectedClosingQuoteToMatch start).atOne o) ∨
    (∃ s b c r, (if esc then StrBody s ('\\' :: b) else StrBody s b) ∧ inp = b ++ '\\' :: c :: r ∧ (∀ d, ¬ Escape c d) ∧
      e = ParseErrorKind.strExpectedValidEscapeCode.atOne (o + utf8Len (b ++ ['\\']))) ∨
    (esc = true ∧ ∃ c r, inp = c :: r ∧ (∀ d, ¬ Escape c d) ∧ e = ParseErrorKind.strExpectedValidEscapeCode.atOne o) := by
  have bs : ('\\' : Char).utf8Size = 1 := rfl
  intro inp
  induction inp with
  | nil =>
    intro out o t' esc e h
    simp [strLoop] at h
    obtain ⟨rfl, rfl⟩ := h
    cases esc with
    | false => exact .inl ⟨[], [], by simpa using StrBody.nil, rfl, by simp⟩
    | true => exact .inr (.inr (.inl ⟨rfl, rfl, rfl⟩))
  | cons c r ih =>
    intro out o t' esc e h
    unfold strLoop at h
    split at h
    · next hc =>
      obtain ⟨rfl, rfl⟩ := hc
      rcases ih _ _ _ _ _ h with ⟨s, b, h1, rfl, rfl⟩ | ⟨s, b, h1, rfl, rfl⟩ | ⟨_, rfl, rfl⟩ | ⟨s, b, c, r', h1, rfl, h2, rfl⟩ | ⟨_, c, r', rfl, h2, rfl⟩
      · exact .inl ⟨s, '\\' :: r, by simpa using h1, rfl, by simp [bs, Nat.add_assoc]⟩
      · exact .inr (.inl ⟨s, '\\' :: b, by simpa using h1, rfl, by simp [bs, Nat.add_assoc]⟩)
      · exact .inr (.inl ⟨[], [], by simpa using StrBody.nil, rfl, by simp [bs]⟩)
      · exact .inr (.inr (.inr (.inl ⟨s, '\\' :: b, c, r', by simpa using h1, rfl, h2, by simp [bs, Nat.add_assoc]⟩)))
      · exact .inr (.inr (.inr (.inl ⟨[], [], c, r', by simpa using StrBody.nil, rfl, h2, by simp [bs]⟩)))
    · next hc =>
      split at h
      · next he =>
        subst he
        cases hf : fromEscapeCode c with
        | none =>
          simp [hf] at h
          obtain ⟨rfl, rfl⟩ := h
          refine .inr (.inr (.inr (.inr ⟨rfl, c, r, rfl, ?_, rfl⟩)))
          intro d hd
          rw [fromEscapeCode_iff.2 hd] at hf; cases hf
        | some d =>
          simp only [hf] at h
          have he := fromEscapeCode_iff.1 hf
          rcases ih _ _ _ _ _ h with ⟨s, b, h1, rfl, rfl⟩ | ⟨s, b, h1, rfl, rfl⟩ | ⟨h1, _⟩ | ⟨s, b, c', r', h1, rfl, h2, rfl⟩ | ⟨h1, _⟩
          · exact .inl ⟨d :: s, c :: r, by simpa using StrBody.esc he (by simpa using h1), rfl, by simp [Nat.add_assoc]⟩
          · exact .inr (.inl ⟨d :: s, c :: b, by simpa using StrBody.esc he (by simpa using h1), rfl, by simp [Nat.add_assoc]⟩)
          · cases h1
          · exact .inr (.inr (.inr (.inl ⟨d :: s, c :: b, c', r', by simpa using StrBody.esc he (by simpa using h1), rfl, h2, by simp [Nat.add_assoc]⟩)))
          · cases h1
      · next he =>
        simp at he; subst he
        split at h
        · simp at h
        · next hq =>
          have hc : c ≠ '\\' := by simpa using hc
          rcases ih _ _ _ _ _ h with ⟨s, b, h1, rfl, rfl⟩ | ⟨s, b, h1, rfl, rfl⟩ | ⟨h1, _⟩ | ⟨s, b, c', r', h1, rfl, h2, rfl⟩ | ⟨h1, _⟩
          · exact .inl ⟨c :: s, c :: r, by simpa using StrBody.plain hc hq (by simpa using h1), rfl, by simp [Nat.add_assoc]⟩
          · exact .inr (.inl ⟨c :: s, c :: b, by simpa using StrBody.plain hc hq (by simpa using h1), rfl, by simp [Nat.add_assoc]⟩)
          · cases h1
          · exact .inr (.inr (.inr (.inl ⟨c :: s, c :: b, c', r', by simpa using StrBody.plain hc hq (by simpa using h1), rfl, h2, by simp [Nat.add_assoc]⟩)))
          · cases h1

theorem parseString_fault {t t' : Toks} {e : ParseError} (h : parseString t = (.error (some e), t')) :
    StrFault t.off t.rest e := by
  have q : ('"' : Char).utf8Size = 1 := rfl
  unfold parseString at h
  rcases token_cases '"' t with ⟨r, h1, h2⟩ | ⟨h1, h2⟩
  · simp only [h2] at h
    rw [h1]
    rcases strLoop_fault _ _ _ _ _ _ _ h with ⟨s, b, h3, rfl, rfl⟩ | ⟨s, b, h3, rfl, rfl⟩ | ⟨h3, _⟩ | ⟨s, b, c, r', h3, rfl, h4, rfl⟩ | ⟨h3, _⟩
    · have := StrFault.close (o := t.off) (by simpa using h3)
      simpa [Nat.add_assoc] using this
    · have := StrFault.escEnds (o := t.off) (by simpa using h3)
      simpa [Nat.add_assoc] using this
    · cases h3
    · have := StrFault.esc (o := t.off) (r := r') (by simpa using h3) h4
      simpa [Nat.add_assoc] using this
    · cases h3
  · simp [h2] at h

/-! ### numbers -/

theorem NumFault.parse {o : Nat} {s : Str} {e : ParseError} (h : NumFault o s e) :
    ∃ t', parseNumber ⟨s, o⟩ = (.error (some e), t') := by
  have hp : ('+' : Char).utf8Size = 1 := rfl
  have hm : ('-' : Char).utf8Size = 1 := rfl
  have hpm : ('-' : Char) ≠ '+' := by decide
  cases h with
  | @sign c r hc h =>
    have h := noHead_headNot.1 h
    rcases hc with rfl | rfl
    · exact ⟨_, by simp [parseNumber, takeNum_none h, hp, ParseErrorKind.atOne, ParseErrorKind.between]; rfl⟩
    · exact ⟨_, by simp [parseNumber, token_ne hpm, takeNum_none h, hm, ParseErrorKind.atOne, ParseErrorKind.between]; rfl⟩
  | @pos sg ds r n hs h hr hn =>
    have none : U128.ofNat? n = none := by
      cases hu : U128.ofNat? n with
      | none => rfl
      | some m => rw [U128.ofNat?_eq_some] at hu; have := m.lt; omega
    rcases hs with rfl | rfl
    · obtain ⟨h3, h4⟩ := h.take hr o
      obtain ⟨c, cs, rfl, hc⟩ := h.head
      have h1 := (digit_ne_sign hc).1
      have h2 := (digit_ne_sign hc).2
      have hp : 0 < utf8Len (c :: cs) := utf8Len_pos (by simp)
      refine ⟨⟨r, o + utf8Len (c :: cs)⟩, ?_⟩
      simp only [parseNumber, List.cons_append, token_ne h1, token_ne h2, List.nil_append] at h3 ⊢
      simp only [Bool.false_eq_true, if_false, h3, h4, Bool.not_false, if_true, none]
      rw [if_neg (by omega)]
      simp
    · obtain ⟨h3, h4⟩ := h.take hr (o + '+'.utf8Size)
      refine ⟨⟨r, o + '+'.utf8Size + utf8Len ds⟩, ?_⟩
      simp only [parseNumber, List.cons_append, List.nil_append, token_eq, h3, h4, if_true, none]
      rw [if_neg (by omega)]
      simp [Nat.add_assoc]
  | @neg ds r n h hr hn =>
    have none : I128.ofInt? (-(n : Int)) = none := by
      cases hu : I128.ofInt? (-(n : Int)) with
      | none => rfl
      | some m => rw [I128.ofInt?_eq_some] at hu; have := m.ge; omega
    obtain ⟨h3, h4⟩ := h.take hr (o + '-'.utf8Size)
    refine ⟨⟨r, o + '-'.utf8Size + utf8Len ds⟩, ?_⟩
    simp only [parseNumber, List.cons_append, token_ne hpm, token_eq]
    simp only [Bool.false_eq_true, if_false, h3, h4, none]
    rw [if_neg (by omega)]
    simp [Nat.add_assoc]

theorem parseNumber_fault {t t' : Toks} {e : Option ParseError} (h : parseNumber t = (.error e, t')) :
    (∃ e', e = some e' ∧ NumFault t.off t.rest e') ∨
    (e = none ∧ t' = t ∧ ∀ c r, t.rest = c :: r → isDigit c = false ∧ c ≠ '+' ∧ c ≠ '-') := by
  rcases parseNumber_cases t with ⟨h1, h2⟩ | ⟨sg, r', h1, h2, h3, h4⟩ | ⟨sg, ds, r', n, h1, h2, h3, h4, h5⟩ |
      ⟨ds, r', n, h2, h3, h4, h5⟩
  · rw [h2] at h; simp at h; exact .inr ⟨h.1.symm, h.2.symm, h1⟩
  · rw [h4] at h; simp at h; obtain ⟨rfl, rfl⟩ := h
    rw [h2]
    exact .inl ⟨_, rfl, .sign h1 (noHead_headNot.2 h3)⟩
  · rw [h5] at h
    cases hn : U128.ofNat? n with
    | some n' => simp [hn] at h
    | none =>
      simp [hn] at h; obtain ⟨rfl, rfl⟩ := h
      rw [h2]
      refine .inl ⟨_, rfl, ?_⟩
      have : 2 ^ 128 ≤ n := by
        refine Nat.le_of_not_lt fun hlt => ?_
        have := (U128.ofNat?_eq_some (n := n) (u := ⟨n, hlt⟩)).2 rfl
        rw [hn] at this; cases this
      simpa using NumFault.pos h1 h4 h3 this
  · rw [h5] at h
    cases hn : I128.ofInt? (-(n : Int)) with
    | some n' => simp [hn] at h
    | none =>
      simp [hn] at h; obtain ⟨rfl, rfl⟩ := h
      rw [h2]
      refine .inl ⟨_, rfl, ?_⟩
      have : 2 ^ 127 < n := by
        refine Nat.lt_of_not_le fun hlt => ?_
        have := (I128.ofInt?_eq_some (n := -(n : Int)) (u := ⟨-(n : Int), by omega, by omega⟩)).2 rfl
        rw [hn] at this; cases this
      simpa using NumFault.neg h4 h3 this

/-! ### bit sequences -/

theorem bits_fault_parse {o : Nat} {bs : List Bool} {r : Str} (h : NoHead (fun c => c = '0' ∨ c = '1' ∨ c = '>') r) :
    ∃ t', parseBitSequence ⟨'<' :: bitChars bs ++ r, o⟩ = (.error (some
      ((ParseErrorKind.bitsExpectedClosingBracketToMatch o).atOne (o + utf8Len ('<' :: bitChars bs)))), t') := by
  have hb : ∀ c ∈ bitChars bs, (c == '0' || c == '1') = true := by
    intro c hc
    simp [bitChars] at hc
    rcases hc with ⟨_, rfl⟩ | ⟨_, rfl⟩ <;> rfl
  have hr : HeadNot (fun c => c == '0' || c == '1') r := by
    rw [← noHead_headNot]
    refine h.mono ?_
    intro c hc; simp at hc; rcases hc with h | h <;> simp [h]
  have e := takeWhileT_split hb hr (o + ('<' : Char).utf8Size)
  refine ⟨⟨r, o + '<'.utf8Size + utf8Len (bitChars bs)⟩, ?_⟩
  simp only [parseBitSequence, List.cons_append, token_eq, Toks.takeWhile, e]
  rw [token_noHead (h.mono (by intro c hc; simp [hc]))]
  simp [Nat.add_assoc, ParseErrorKind.atOne, ParseErrorKind.between]

theorem parseBitSequence_fault {t t' : Toks} {e : Option ParseError} (h : parseBitSequence t = (.error e, t')) :
    (∃ bs r, t.rest = '<' :: bitChars bs ++ r ∧ NoHead (fun c => c = '0' ∨ c = '1' ∨ c = '>') r ∧
      e = some ((ParseErrorKind.bitsExpectedClosingBracketToMatch t.off).atOne (t.off + utf8Len ('<' :: bitChars bs)))) ∨
    (e = none ∧ t' = t ∧ ∀ r, t.rest ≠ '<' :: r) := by
  unfold parseBitSequence at h
  rcases token_cases '<' t with ⟨r, h1, h2⟩ | ⟨h1, h2⟩
  · left
    simp only [h2, Toks.takeWhile, takeWhileT_eq] at h
    have ha := takeWhile_all (fun c => c == '0' || c == '1') r
    have hd := dropWhile_head (fun c => c == '0' || c == '1') r
    have hr : r = r.takeWhile (fun c => c == '0' || c == '1') ++ r.dropWhile (fun c => c == '0' || c == '1') := by simp
    generalize r.takeWhile (fun c => c == '0' || c == '1') = x at h ha hr
    generalize r.dropWhile (fun c => c == '0' || c == '1') = y at h hd hr
    have hm : bitChars (x.map (fun c => c == '1')) = x := by
      simp only [bitChars, List.map_map]
      conv => rhs; rw [← List.map_id x]
      apply List.map_congr_left
      intro c hc
      have := ha c hc
      simp at this
      rcases this with rfl | rfl <;> rfl
    rcases token_cases '>' ⟨y, t.off + '<'.utf8Size + utf8Len x⟩ with ⟨r', h3, h4⟩ | ⟨h3, h4⟩
    · simp [h4] at h
    · simp [h4] at h
      obtain ⟨rfl, rfl⟩ := h
      refine ⟨x.map (fun c => c == '1'), y, by rw [hm, h1, hr]; rfl, ?_, ?_⟩
      · intro c r' hc hx
        have hd := hd c r' hc
        simp at hd
        rcases hx with hx | hx | hx
        · exact hd.1 hx
        · exact hd.2 hx
        · subst hx; exact h3 r' hc
      · rw [hm]; simp [Nat.add_assoc, ParseErrorKind.atOne, ParseErrorKind.between]
  · right
    simp [h2] at h
    exact ⟨h.1.symm, h.2.symm, h1⟩

end SV
