import Verif.Model.Parse
import Verif.Spec.Grammar
/-
Lemmas on the token functions and the lexical parsers.
-/
namespace SV

@[simp] theorem token_nil (c : Char) (o : Nat) : Toks.token c ⟨[], o⟩ = (false, ⟨[], o⟩) := rfl
@[simp] theorem token_eq (c : Char) (r : Str) (o : Nat) :
    Toks.token c ⟨c :: r, o⟩ = (true, ⟨r, o + c.utf8Size⟩) := by simp [Toks.token]
theorem token_cons (c d : Char) (r : Str) (o : Nat) :
    Toks.token c ⟨d :: r, o⟩ = if d = c then (true, ⟨r, o + d.utf8Size⟩) else (false, ⟨d :: r, o⟩) := rfl
theorem token_ne {c d : Char} (h : d ≠ c) (r : Str) (o : Nat) :
    Toks.token c ⟨d :: r, o⟩ = (false, ⟨d :: r, o⟩) := by simp [Toks.token, h]

/-- `token` either consumes the token or does nothing. -/
theorem token_cases (c : Char) (t : Toks) :
    (∃ r, t.rest = c :: r ∧ t.token c = (true, ⟨r, t.off + c.utf8Size⟩)) ∨
    ((∀ r, t.rest ≠ c :: r) ∧ t.token c = (false, t)) := by
  obtain ⟨rest, o⟩ := t
  cases rest with
  | nil => right; simp
  | cons d r =>
    by_cases h : d = c
    · subst h; left; simp
    · right; simp [token_ne h, h]

theorem tokens_go_cases (t0 : Toks) (cs : List Char) (t : Toks) :
    (∃ r, t.rest = cs ++ r ∧ Toks.tokens.go t0 cs t = (true, ⟨r, t.off + utf8Len cs⟩)) ∨
    (¬ cs <+: t.rest ∧ Toks.tokens.go t0 cs t = (false, t0)) := by
  induction cs generalizing t with
  | nil => left; exact ⟨t.rest, by simp [Toks.tokens.go]⟩
  | cons c cs ih =>
    unfold Toks.tokens.go
    rcases token_cases c t with ⟨r, h1, h2⟩ | ⟨h1, h2⟩
    · rw [h2]
      rcases ih ⟨r, t.off + c.utf8Size⟩ with ⟨r', h3, h4⟩ | ⟨h3, h4⟩
      · left; refine ⟨r', ?_, ?_⟩
        · simp at h3; simp [h1, h3]
        · simp [h4]; omega
      · right; refine ⟨?_, h4⟩
        simpa [h1, List.prefix_cons_inj] using h3
    · right; rw [h2]
      refine ⟨?_, rfl⟩
      rintro ⟨r, hr⟩
      exact h1 (cs ++ r) (by simpa using hr.symm)

/-- `tokens` either consumes all the tokens or does nothing. -/
theorem tokens_cases (cs : List Char) (t : Toks) :
    (∃ r, t.rest = cs ++ r ∧ t.tokens cs = (true, ⟨r, t.off + utf8Len cs⟩)) ∨
    (¬ cs <+: t.rest ∧ t.tokens cs = (false, t)) := tokens_go_cases t cs t

theorem takeWhileT_eq (p : Char → Bool) (s : Str) (o : Nat) :
    takeWhileT p s o = (s.takeWhile p, ⟨s.dropWhile p, o + utf8Len (s.takeWhile p)⟩) := by
  induction s generalizing o with
  | nil => rfl
  | cons c r ih =>
    simp only [takeWhileT]
    by_cases h : p c = true
    · simp [h, ih]; omega
    · simp [h]

/-- Head of a string satisfies a predicate. -/
def HeadNot (p : Char → Bool) (s : Str) : Prop := ∀ c r, s = c :: r → p c = false

theorem takeWhile_split {p : Char → Bool} {a r : Str} (ha : ∀ c ∈ a, p c = true) (hr : HeadNot p r) :
    (a ++ r).takeWhile p = a ∧ (a ++ r).dropWhile p = r := by
  induction a with
  | nil =>
    cases r with
    | nil => simp
    | cons c r => have := hr c r rfl; simp [this]
  | cons c a ih =>
    have hc := ha c (by simp)
    have := ih (fun c h => ha c (List.mem_cons_of_mem _ h))
    simp [hc, this]

theorem takeWhileT_split {p : Char → Bool} {a r : Str} (ha : ∀ c ∈ a, p c = true) (hr : HeadNot p r)
    (o : Nat) : takeWhileT p (a ++ r) o = (a, ⟨r, o + utf8Len a⟩) := by
  rw [takeWhileT_eq, (takeWhile_split ha hr).1, (takeWhile_split ha hr).2]

theorem takeWhile_all (p : Char → Bool) (s : Str) : ∀ c ∈ s.takeWhile p, p c = true := by
  induction s with
  | nil => simp
  | cons d r ih =>
    by_cases h : p d = true
    · simp [h]; exact ih
    · simp [h]

theorem dropWhile_head (p : Char → Bool) (s : Str) : HeadNot p (s.dropWhile p) := by
  induction s with
  | nil => intro c r h; simp at h
  | cons d r ih =>
    by_cases h : p d = true
    · simpa [h] using ih
    · intro c r' h'; simp [h] at h'; simpa [← h'.1] using h

variable {u : Uni}

theorem skipWs_eq (t : Toks) :
    skipWs u t = ⟨t.rest.dropWhile u.ws, t.off + utf8Len (t.rest.takeWhile u.ws)⟩ := by
  simp [skipWs, Toks.skipWhile, Toks.takeWhile, takeWhileT_eq]

theorem skipWs_split {w r : Str} (hw : Ws u w) (hr : HeadNot u.ws r) (o : Nat) :
    skipWs u ⟨w ++ r, o⟩ = ⟨r, o + utf8Len w⟩ := by
  simp [skipWs_eq, takeWhile_split hw hr]

/-- What `skip_whitespace` does, as a decomposition. -/
theorem skipWs_spec (t : Toks) : ∃ w, Ws u w ∧ t.rest = w ++ (skipWs u t).rest ∧
    HeadNot u.ws (skipWs u t).rest ∧ (skipWs u t).off = t.off + utf8Len w := by
  refine ⟨t.rest.takeWhile u.ws, takeWhile_all _ _, ?_, ?_, ?_⟩ <;> rw [skipWs_eq]
  · simp
  · exact dropWhile_head _ _

theorem HeadNot_cons {p : Char → Bool} {c : Char} {r : Str} : HeadNot p (c :: r) ↔ p c = false := by
  constructor
  · intro h; exact h c r rfl
  · intro h d r' e; cases e; exact h

theorem HeadNot_nil {p : Char → Bool} : HeadNot p [] := by intro c r h; cases h

theorem HeadNot_append {p : Char → Bool} {a b : Str} (ha : a ≠ []) (h : HeadNot p a) : HeadNot p (a ++ b) := by
  cases a with
  | nil => exact absurd rfl ha
  | cons c r => simpa [HeadNot_cons] using h

/-- ASCII characters that are not whitespace. -/
theorem ws_false_ascii {c : Char} (h : c.toNat < 128) (h2 : isAsciiWs c = false) : u.ws c = false := by
  rw [u.ws_ascii c h, h2]

theorem alnum_ascii {c : Char} (h : c.toNat < 128) : u.alnum c = isAsciiAlnum c := by
  simp [Uni.alnum, isAsciiAlnum, u.alpha_ascii c h, u.numeric_ascii c h]

theorem ws_not_alnum {c : Char} (h : u.ws c = true) : u.alnum c = false := by
  simp [Uni.alnum, u.ws_alpha c h, u.ws_numeric c h]

theorem alpha_alnum {c : Char} (h : u.alpha c = true) : u.alnum c = true := by simp [Uni.alnum, h]

theorem alpha_not_ws {c : Char} (h : u.alpha c = true) : u.ws c = false := by
  cases hw : u.ws c with
  | false => rfl
  | true => have := u.ws_alpha c hw; rw [h] at this; cases this

theorem isDigit_lt {c : Char} (h : isDigit c = true) : c.toNat < 128 := by
  simp [isDigit] at h; omega

theorem isDigit_not_ws {c : Char} (h : isDigit c = true) : u.ws c = false := by
  apply ws_false_ascii (isDigit_lt h)
  simp [isDigit, isAsciiWs] at h ⊢; omega

theorem ws_not_digit {c : Char} (h : u.ws c = true) : isDigit c = false := by
  cases hd : isDigit c with
  | false => rfl
  | true => rw [isDigit_not_ws hd] at h; cases h

/-! ### Escapes and strings -/

theorem fromEscapeCode_iff {e d : Char} : fromEscapeCode e = some d ↔ Escape e d := by
  constructor
  · intro h
    unfold fromEscapeCode at h
    split at h
    · subst_vars; cases h; exact .nl
    split at h
    · subst_vars; cases h; exact .tab
    split at h
    · subst_vars; cases h; exact .dq
    split at h
    · subst_vars; cases h; exact .sq
    split at h
    · subst_vars; cases h; exact .cr
    split at h
    · subst_vars; cases h; exact .bs
    split at h
    · subst_vars; cases h; exact .nul
    · cases h
  · intro h; cases h <;> decide

theorem strLoop_complete {s t : Str} (h : StrBody s t) (start : Nat) :
    ∀ (out : Str) (rest : Str) (o : Nat), strLoop start out false (t ++ '"' :: rest) o =
      (.ok (out ++ s), ⟨rest, o + utf8Len t + 1⟩) := by
  induction h with
  | nil => intro out rest o; simp [strLoop]; rfl
  | @plain c s t h1 h2 h ih =>
    intro out rest o
    simp only [List.cons_append, strLoop, h1, h2, ih, false_and, if_false, Bool.false_eq_true]
    simp; omega
  | @esc e d s t he h ih =>
    intro out rest o
    simp only [List.cons_append, strLoop, and_self, if_true, fromEscapeCode_iff.2 he, ih, Bool.true_eq_false, and_false, if_false]
    have : ('\\' : Char).utf8Size = 1 := rfl
    simp [this]; omega

theorem strLoop_sound (start : Nat) : ∀ (inp : Str) (out s : Str) (o : Nat) (t' : Toks) (esc : Bool),
    strLoop start out esc inp o = (.ok s, t') →
    ∃ s' b, s = out ++ s' ∧ inp = b ++ '"' :: t'.rest ∧
      (if esc then StrBody s' ('\\' :: b) else StrBody s' b) ∧ t'.off = o + utf8Len b + 1 := by
  intro inp
  induction inp with
  | nil => intro out s o t' esc h; simp [strLoop] at h
  | cons c r ih =>
    intro out s o t' esc h
    unfold strLoop at h
    split at h
    · next hc =>
      obtain ⟨rfl, rfl⟩ := hc
      obtain ⟨s', b, h1, h2, h3, h4⟩ := ih _ _ _ _ _ h
      refine ⟨s', '\\' :: b, h1, by simp [h2], by simpa using h3, ?_⟩
      have : ('\\' : Char).utf8Size = 1 := rfl
      simp [this, h4]; omega
    · next hc =>
      split at h
      · next he =>
        subst he
        cases hf : fromEscapeCode c with
        | none => simp [hf] at h
        | some d =>
          simp only [hf] at h
          obtain ⟨s', b, h1, h2, h3, h4⟩ := ih _ _ _ _ _ h
          refine ⟨d :: s', c :: b, by simp [h1], by simp [h2], ?_, by simp [h4]; omega⟩
          simp at h3
          simpa using StrBody.esc (fromEscapeCode_iff.1 hf) h3
      · next he =>
        simp at he; subst he
        split at h
        · next hq =>
          subst hq
          simp at h
          obtain ⟨rfl, rfl⟩ := h
          exact ⟨[], [], by simp, by simp, by simpa using StrBody.nil, by simp; rfl⟩
        · next hq =>
          obtain ⟨s', b, h1, h2, h3, h4⟩ := ih _ _ _ _ _ h
          refine ⟨c :: s', c :: b, by simp [h1], by simp [h2], ?_, by simp [h4]; omega⟩
          simp at h3
          simpa using StrBody.plain (by simpa using hc) hq h3

theorem strLoop_not_none (start : Nat) : ∀ (inp out : Str) (o : Nat) (esc : Bool) (t' : Toks),
    strLoop start out esc inp o ≠ (.error none, t') := by
  intro inp
  induction inp with
  | nil => intro out o esc t' h; simp [strLoop] at h
  | cons c r ih =>
    intro out o esc t' h
    unfold strLoop at h
    split at h
    · exact ih _ _ _ _ h
    · split at h
      · split at h
        · exact ih _ _ _ _ h
        · simp at h
      · split at h
        · simp at h
        · exact ih _ _ _ _ h

theorem parseString_complete {s t : Str} (h : StrLit s t) (rest : Str) (o : Nat) :
    parseString ⟨t ++ rest, o⟩ = (.ok s, ⟨rest, o + utf8Len t⟩) := by
  cases h with
  | mk h =>
    have : ('"' : Char).utf8Size = 1 := rfl
    simp [parseString, strLoop_complete h, this]; omega

theorem parseString_sound {t t' : Toks} {s : Str} (h : parseString t = (.ok s, t')) :
    ∃ x, StrLit s x ∧ t.rest = x ++ t'.rest ∧ t'.off = t.off + utf8Len x := by
  unfold parseString at h
  rcases token_cases '"' t with ⟨r, h1, h2⟩ | ⟨h1, h2⟩
  · simp only [h2] at h
    obtain ⟨s', b, h3, h4, h5, h6⟩ := strLoop_sound _ _ _ _ _ _ _ h
    simp at h5 h3; subst h3
    refine ⟨_, .mk h5, ?_, ?_⟩
    · simp [h1, h4]
    · have : ('"' : Char).utf8Size = 1 := rfl
      simp [h6, this]; omega
  · simp [h2] at h

theorem parseString_none {r : Str} {o : Nat} (h : ∀ r', r ≠ '"' :: r') :
    parseString ⟨r, o⟩ = (.error none, ⟨r, o⟩) := by
  unfold parseString
  rcases token_cases '"' ⟨r, o⟩ with ⟨r', h1, h2⟩ | ⟨h1, h2⟩
  · exact absurd h1 (h r')
  · simp [h2]

theorem parseString_err_none {t t' : Toks} (h : parseString t = (.error none, t')) :
    (∀ r, t.rest ≠ '"' :: r) ∧ t' = t := by
  unfold parseString at h
  rcases token_cases '"' t with ⟨r, h1, h2⟩ | ⟨h1, h2⟩
  · simp only [h2] at h; exact absurd h (strLoop_not_none _ _ _ _ _ _)
  · simp [h2] at h; exact ⟨h1, h.symm⟩

/-! ### chars -/

theorem parseCharClose_cases (start : Nat) (c : Char) (t : Toks) :
    (∃ r, t.rest = '\'' :: r ∧ parseCharClose start c t = (.ok c, ⟨r, t.off + 1⟩)) ∨
    ((∀ r, t.rest ≠ '\'' :: r) ∧ parseCharClose start c t =
      (.error (some ((ParseErrorKind.charExpectedClosingQuoteToMatch start).atOne t.off)), t)) := by
  unfold parseCharClose
  rcases token_cases '\'' t with ⟨r, h1, h2⟩ | ⟨h1, h2⟩
  · left; exact ⟨r, h1, by rw [h2]; rfl⟩
  · right; exact ⟨h1, by rw [h2]⟩

theorem parseChar_complete {c : Char} {s : Str} (h : CharLit c s) (rest : Str) (o : Nat) :
    parseChar ⟨s ++ rest, o⟩ = (.ok c, ⟨rest, o + utf8Len s⟩) := by
  have q : ('\'' : Char).utf8Size = 1 := rfl
  have b : ('\\' : Char).utf8Size = 1 := rfl
  cases h with
  | plain h =>
    simp [parseChar, Toks.next, h, parseCharClose, q]; omega
  | esc he =>
    simp [parseChar, Toks.next, parseCharClose, fromEscapeCode_iff.2 he, q, b]; omega

theorem parseChar_sound {c : Char} {t t' : Toks} (h : parseChar t = (.ok c, t')) :
    ∃ x, CharLit c x ∧ t.rest = x ++ t'.rest ∧ t'.off = t.off + utf8Len x := by
  have q : ('\'' : Char).utf8Size = 1 := rfl
  have b : ('\\' : Char).utf8Size = 1 := rfl
  unfold parseChar at h
  rcases token_cases '\'' t with ⟨r, h1, h2⟩ | ⟨h1, h2⟩
  · simp only [h2] at h
    cases r with
    | nil => simp [Toks.next] at h
    | cons d r =>
      simp only [Toks.next] at h
      split at h
      · next hd =>
        subst hd
        cases r with
        | nil => simp at h
        | cons e r =>
          simp only at h
          cases he : fromEscapeCode e with
          | none => simp [he] at h
          | some c' =>
            simp only [he] at h
            rcases parseCharClose_cases t.off c' ⟨r, t.off + '\''.utf8Size + '\\'.utf8Size + e.utf8Size⟩ with ⟨r', h3, h4⟩ | ⟨h3, h4⟩
            · rw [h4] at h
              simp at h3; subst h3
              simp at h; obtain ⟨rfl, rfl⟩ := h
              refine ⟨_, .esc (fromEscapeCode_iff.1 he), by simp [h1], ?_⟩
              simp [q, b]; omega
            · rw [h4] at h; simp at h
      · next hd =>
        rcases parseCharClose_cases t.off d ⟨r, t.off + '\''.utf8Size + d.utf8Size⟩ with ⟨r', h3, h4⟩ | ⟨h3, h4⟩
        · rw [h4] at h
          simp at h3; subst h3
          simp at h; obtain ⟨rfl, rfl⟩ := h
          refine ⟨_, .plain hd, by simp [h1], ?_⟩
          simp [q]; omega
        · rw [h4] at h; simp at h
  · simp [h2] at h

theorem parseChar_none {r : Str} {o : Nat} (h : ∀ r', r ≠ '\'' :: r') :
    parseChar ⟨r, o⟩ = (.error none, ⟨r, o⟩) := by
  unfold parseChar
  rcases token_cases '\'' ⟨r, o⟩ with ⟨r', h1, h2⟩ | ⟨h1, h2⟩
  · exact absurd h1 (h r')
  · simp [h2]

/-! ### bit sequences -/

theorem parseBitSequence_complete (bs : List Bool) (rest : Str) (o : Nat) :
    parseBitSequence ⟨('<' :: bitChars bs ++ ['>']) ++ rest, o⟩ =
      (.ok bs, ⟨rest, o + utf8Len ('<' :: bitChars bs ++ ['>'])⟩) := by
  have hb : ∀ c ∈ bitChars bs, (c == '0' || c == '1') = true := by
    intro c hc
    simp [bitChars] at hc
    rcases hc with ⟨_, rfl⟩ | ⟨_, rfl⟩ <;> rfl
  have hm : (bitChars bs).map (fun c => c == '1') = bs := by
    simp only [bitChars, List.map_map]
    conv => rhs; rw [← List.map_id bs]
    apply List.map_congr_left
    intro b _; cases b <;> rfl
  have e := takeWhileT_split hb (r := '>' :: rest) (HeadNot_cons.2 rfl) (o + ('<' : Char).utf8Size)
  simp only [parseBitSequence, List.cons_append, token_eq, Toks.takeWhile, List.append_assoc, List.nil_append, e, hm]
  simp; omega

theorem parseBitSequence_sound {bs : List Bool} {t t' : Toks} (h : parseBitSequence t = (.ok bs, t')) :
    t.rest = ('<' :: bitChars bs ++ ['>']) ++ t'.rest ∧
      t'.off = t.off + utf8Len ('<' :: bitChars bs ++ ['>']) := by
  unfold parseBitSequence at h
  rcases token_cases '<' t with ⟨r, h1, h2⟩ | ⟨h1, h2⟩
  · simp only [h2, Toks.takeWhile, takeWhileT_eq] at h
    generalize hx : r.takeWhile (fun c => c == '0' || c == '1') = x at h
    generalize hy : r.dropWhile (fun c => c == '0' || c == '1') = y at h
    have hr : r = x ++ y := by rw [← hx, ← hy]; simp
    have hm : bitChars (x.map (fun c => c == '1')) = x := by
      simp only [bitChars, List.map_map]
      conv => rhs; rw [← List.map_id x]
      apply List.map_congr_left
      intro c hc
      have := takeWhile_all (fun c => c == '0' || c == '1') r c (hx ▸ hc)
      simp at this
      rcases this with rfl | rfl <;> rfl
    rcases token_cases '>' ⟨y, t.off + ('<' : Char).utf8Size + utf8Len x⟩ with ⟨r', h3, h4⟩ | ⟨h3, h4⟩
    · rw [h4] at h
      simp at h h3
      obtain ⟨rfl, rfl⟩ := h
      rw [hm]
      constructor
      · simp [h1, hr, h3]
      · simp; omega
    · rw [h4] at h; simp at h
  · simp [h2] at h

theorem parseBitSequence_none {r : Str} {o : Nat} (h : ∀ r', r ≠ '<' :: r') :
    parseBitSequence ⟨r, o⟩ = (.error none, ⟨r, o⟩) := by
  unfold parseBitSequence
  rcases token_cases '<' ⟨r, o⟩ with ⟨r', h1, h2⟩ | ⟨h1, h2⟩
  · exact absurd h1 (h r')
  · simp [h2]

/-! ### bools -/

theorem parseBool_none {t : Toks} (h1 : ¬ ['t', 'r', 'u', 'e'] <+: t.rest)
    (h2 : ¬ ['f', 'a', 'l', 's', 'e'] <+: t.rest) : parseBool t = (.error none, t) := by
  unfold parseBool
  rcases tokens_cases ['t', 'r', 'u', 'e'] t with ⟨r, h3, _⟩ | ⟨_, h4⟩
  · exact absurd ⟨r, h3.symm⟩ h1
  · rw [h4]
    rcases tokens_cases ['f', 'a', 'l', 's', 'e'] t with ⟨r, h3, _⟩ | ⟨_, h5⟩
    · exact absurd ⟨r, h3.symm⟩ h2
    · simp only [h5]

theorem parseBool_true (r : Str) (o : Nat) :
    parseBool ⟨['t', 'r', 'u', 'e'] ++ r, o⟩ = (.ok true, ⟨r, o + 4⟩) := by
  unfold parseBool
  rcases tokens_cases ['t', 'r', 'u', 'e'] ⟨['t', 'r', 'u', 'e'] ++ r, o⟩ with ⟨r', h3, h4⟩ | ⟨h3, _⟩
  · simp at h3; subst h3; rw [h4]; rfl
  · exact absurd ⟨r, rfl⟩ h3

theorem parseBool_false (r : Str) (o : Nat) :
    parseBool ⟨['f', 'a', 'l', 's', 'e'] ++ r, o⟩ = (.ok false, ⟨r, o + 5⟩) := by
  unfold parseBool
  rcases tokens_cases ['t', 'r', 'u', 'e'] ⟨['f', 'a', 'l', 's', 'e'] ++ r, o⟩ with ⟨r', h3, h4⟩ | ⟨_, h3⟩
  · simp at h3
  · rw [h3]
    rcases tokens_cases ['f', 'a', 'l', 's', 'e'] ⟨['f', 'a', 'l', 's', 'e'] ++ r, o⟩ with ⟨r', h3, h4⟩ | ⟨h3, _⟩
    · simp at h3; subst h3; simp only [h4]; rfl
    · exact absurd ⟨r, rfl⟩ h3

theorem parseBool_cases (t : Toks) :
    (∃ r, t.rest = ['t', 'r', 'u', 'e'] ++ r ∧ parseBool t = (.ok true, ⟨r, t.off + 4⟩)) ∨
    (∃ r, t.rest = ['f', 'a', 'l', 's', 'e'] ++ r ∧ parseBool t = (.ok false, ⟨r, t.off + 5⟩)) ∨
    (¬ ['t', 'r', 'u', 'e'] <+: t.rest ∧ ¬ ['f', 'a', 'l', 's', 'e'] <+: t.rest ∧
      parseBool t = (.error none, t)) := by
  obtain ⟨rest, o⟩ := t
  by_cases h1 : ['t', 'r', 'u', 'e'] <+: rest
  · obtain ⟨r, rfl⟩ := h1; left; exact ⟨r, rfl, parseBool_true r o⟩
  · by_cases h2 : ['f', 'a', 'l', 's', 'e'] <+: rest
    · obtain ⟨r, rfl⟩ := h2; right; left; exact ⟨r, rfl, parseBool_false r o⟩
    · right; right; exact ⟨h1, h2, parseBool_none h1 h2⟩

end SV
