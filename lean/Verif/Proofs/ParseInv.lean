import Verif.Proofs.LexNum
import Verif.Spec.Size
/-
Invariants of the parser for any input and any custom parsers: it terminates, only ever advances through the
input, and errors are located inside of it.
-/
namespace SV

variable {u : Uni}

/-- `t'` is `t` advanced over some characters. -/
def Adv (t t' : Toks) : Prop := ∃ pre, t.rest = pre ++ t'.rest ∧ t'.off = t.off + utf8Len pre

theorem Adv.refl (t : Toks) : Adv t t := ⟨[], by simp⟩
theorem Adv.trans {a b c : Toks} (h : Adv a b) (h2 : Adv b c) : Adv a c := by
  obtain ⟨p, h3, h4⟩ := h
  obtain ⟨q, h5, h6⟩ := h2
  exact ⟨p ++ q, by simp [h3, h5], by simp [h6, h4]; omega⟩
theorem Adv.le {a b : Toks} (h : Adv a b) : b.rest.length ≤ a.rest.length := by
  obtain ⟨p, h3, _⟩ := h; simp [h3]
theorem Adv.cons {c : Char} {r : Str} {o : Nat} : Adv ⟨c :: r, o⟩ ⟨r, o + c.utf8Size⟩ :=
  ⟨[c], by simp⟩

/-- The error begins at a character boundary of what `t` has left (or its end), and does not end
before it begins. -/
def ErrIn (t : Toks) (e : ParseError) : Prop :=
  (∃ pre r, t.rest = pre ++ r ∧ e.startLoc = t.off + utf8Len pre) ∧ ∀ l, e.endLoc = some l → e.startLoc ≤ l

theorem ErrIn.of_adv {a b : Toks} {e : ParseError} (h : Adv a b) (h2 : ErrIn b e) : ErrIn a e := by
  obtain ⟨p, h3, h4⟩ := h
  obtain ⟨⟨q, r, h5, h6⟩, h7⟩ := h2
  exact ⟨⟨p ++ q, r, by simp [h3, h5], by simp [h6, h4]; omega⟩, h7⟩

theorem ErrIn.at {t t' : Toks} (h : Adv t t') (k : ParseErrorKind) : ErrIn t (k.at t'.off) := by
  obtain ⟨p, h1, h2⟩ := h
  exact ⟨⟨p, t'.rest, h1, h2⟩, by simp [ParseErrorKind.at]⟩
theorem ErrIn.atOne {t t' : Toks} (h : Adv t t') (k : ParseErrorKind) : ErrIn t (k.atOne t'.off) := by
  obtain ⟨p, h1, h2⟩ := h
  exact ⟨⟨p, t'.rest, h1, h2⟩, by simp [ParseErrorKind.atOne]⟩
theorem ErrIn.between {t t' : Toks} (h : Adv t t') (k : ParseErrorKind) {l : Nat} (hl : t'.off ≤ l) :
    ErrIn t (k.between t'.off l) := by
  obtain ⟨p, h1, h2⟩ := h
  exact ⟨⟨p, t'.rest, h1, h2⟩, by simp [ParseErrorKind.between]; omega⟩

/-! ### tokens -/

theorem token_adv (c : Char) (t : Toks) : Adv t (t.token c).2 := by
  rcases token_cases c t with ⟨r, h1, h2⟩ | ⟨_, h2⟩
  · rw [h2]; exact ⟨[c], by simp [h1], by simp⟩
  · rw [h2]; exact .refl t

theorem token_true_lt {c : Char} {t t' : Toks} (h : t.token c = (true, t')) :
    t'.rest.length < t.rest.length := by
  rcases token_cases c t with ⟨r, h1, h2⟩ | ⟨_, h2⟩
  · rw [h2] at h; cases h; simp [h1]
  · rw [h2] at h; cases h

theorem skipWs_adv (t : Toks) : Adv t (skipWs u t) := by
  obtain ⟨w, _, h1, _, h2⟩ := skipWs_spec (u := u) t
  exact ⟨w, h1, h2⟩

theorem next_adv (t : Toks) : Adv t t.next.2 := by
  obtain ⟨r, o⟩ := t
  cases r with
  | nil => exact .refl _
  | cons c r => exact Adv.cons

theorem nextN_adv (n : Nat) (t : Toks) : Adv t (Toks.nextN n t) := by
  induction n generalizing t with
  | zero => exact .refl t
  | succ n ih => exact (next_adv t).trans (ih _)

theorem takeWhile_adv (p : Char → Bool) (t : Toks) : Adv t (t.takeWhile p).2 := by
  simp only [Toks.takeWhile, takeWhileT_eq]
  exact ⟨t.rest.takeWhile p, by simp, rfl⟩

theorem sep_adv (s : Char) (t : Toks) : Adv t (skipSpacedSep u s t).2 := by
  unfold skipSpacedSep
  exact (skipWs_adv t).trans ((token_adv _ _).trans (skipWs_adv _))

theorem sep_lt {s : Char} {t t' : Toks} (h : skipSpacedSep u s t = (true, t')) :
    t'.rest.length < t.rest.length := by
  unfold skipSpacedSep at h
  have h1 := (skipWs_adv (u := u) t).le
  cases ht : (skipWs u t).token s with
  | mk b t2 =>
    simp only [ht] at h
    cases h
    have h2 := token_true_lt ht
    have h3 := (skipWs_adv (u := u) t2).le
    omega

/-! ### Lexical parsers -/

/-- A result advances the tokens and errors are inside the input. -/
def Inv {α : Type} (t : Toks) (r : PRes α) : Prop := Adv t r.2 ∧ ∀ e, r.1 = .error (some e) → ErrIn t e

theorem strLoop_inv (start : Nat) : ∀ (inp out : Str) (o : Nat) (esc : Bool),
    Inv ⟨inp, o⟩ (strLoop start out esc inp o) := by
  intro inp
  induction inp with
  | nil =>
    intro out o esc
    exact ⟨.refl _, by intro e h; simp [strLoop] at h; subst h; exact ErrIn.atOne (.refl _) _⟩
  | cons c r ih =>
    have lift : ∀ {o} {res : PRes Str}, Inv ⟨r, o + c.utf8Size⟩ res → Inv ⟨c :: r, o⟩ res :=
      fun h => ⟨Adv.cons.trans h.1, fun e he => (h.2 e he).of_adv Adv.cons⟩
    intro out o esc
    unfold strLoop
    split
    · exact lift (ih _ _ _)
    · split
      · split
        · exact lift (ih _ _ _)
        · refine ⟨Adv.cons, ?_⟩
          intro e h; simp at h; subst h
          exact ErrIn.between (t' := ⟨c :: r, o⟩) (.refl _) _ (by simp)
      · split
        · exact ⟨Adv.cons, by intro e h; simp at h⟩
        · exact lift (ih _ _ _)

theorem parseString_inv (t : Toks) : Inv t (parseString t) := by
  unfold parseString
  rcases token_cases '"' t with ⟨r, h1, h2⟩ | ⟨_, h2⟩
  · have ha : Adv t ⟨r, t.off + '"'.utf8Size⟩ := ⟨['"'], by simp [h1], by simp⟩
    rw [h2]
    have := strLoop_inv t.off r [] (t.off + '"'.utf8Size) false
    exact ⟨ha.trans this.1, fun e he => (this.2 e he).of_adv ha⟩
  · rw [h2]; exact ⟨.refl _, by intro e h; simp at h⟩

theorem parseCharClose_inv (start : Nat) (c : Char) (t : Toks) : Inv t (parseCharClose start c t) := by
  rcases parseCharClose_cases start c t with ⟨r, h1, h2⟩ | ⟨h1, h2⟩
  · rw [h2]; exact ⟨⟨['\''], by simp [h1], by simp; rfl⟩, by intro e h; simp at h⟩
  · rw [h2]; exact ⟨.refl _, by intro e h; simp at h; subst h; exact ErrIn.atOne (.refl _) _⟩

theorem Inv.of_adv {α : Type} {a b : Toks} {r : PRes α} (h : Adv a b) (h2 : Inv b r) : Inv a r :=
  ⟨h.trans h2.1, fun e he => (h2.2 e he).of_adv h⟩

theorem parseChar_inv (t : Toks) : Inv t (parseChar t) := by
  unfold parseChar
  rcases token_cases '\'' t with ⟨r, h1, h2⟩ | ⟨_, h2⟩
  · rw [h2]
    refine Inv.of_adv (b := ⟨r, t.off + '\''.utf8Size⟩) ⟨['\''], by simp [h1], by simp⟩ ?_
    cases r with
    | nil => exact ⟨.refl _, by intro e h; simp [Toks.next] at h; subst h; exact ErrIn.atOne (.refl _) _⟩
    | cons c r =>
      simp only [Toks.next]
      refine Inv.of_adv Adv.cons ?_
      split
      · cases r with
        | nil => exact ⟨.refl _, by intro e h; simp at h; subst h; exact ErrIn.atOne (.refl _) _⟩
        | cons d r =>
          simp only
          refine Inv.of_adv Adv.cons ?_
          split
          · exact ⟨.refl _, by intro e h; simp at h; subst h; exact ErrIn.atOne (.refl _) _⟩
          · exact parseCharClose_inv _ _ _
      · exact parseCharClose_inv _ _ _
  · rw [h2]; exact ⟨.refl _, by intro e h; simp at h⟩

theorem parseBool_inv (t : Toks) : Inv t (parseBool t) := by
  rcases parseBool_cases t with ⟨r, h1, h2⟩ | ⟨r, h1, h2⟩ | ⟨_, _, h2⟩ <;> rw [h2]
  · exact ⟨⟨_, h1, rfl⟩, by intro e h; simp at h⟩
  · exact ⟨⟨_, h1, rfl⟩, by intro e h; simp at h⟩
  · exact ⟨.refl _, by intro e h; simp at h⟩

theorem parseNumber_inv (t : Toks) : Inv t (parseNumber t) := by
  rcases parseNumber_cases t with ⟨_, h2⟩ | ⟨sg, r', h1, h2, _, h3⟩ | ⟨sg, ds, r', n, h1, h2, h3, h4, h5⟩ |
      ⟨ds, r', n, h2, h3, h4, h5⟩
  · rw [h2]; exact ⟨.refl _, by intro e h; simp at h⟩
  · have ha : Adv t ⟨r', t.off + 1⟩ := by
      refine ⟨[sg], by simp [h2], ?_⟩
      rcases h1 with rfl | rfl <;> rfl
    rw [h3]; refine ⟨ha, ?_⟩
    intro e h; simp at h; subst h
    exact ErrIn.between ha _ (by simp)
  · have ha : Adv t ⟨r', t.off + utf8Len (sg ++ ds)⟩ := ⟨sg ++ ds, by simp [h2], rfl⟩
    rw [h5]
    cases U128.ofNat? n with
    | none =>
      refine ⟨ha, ?_⟩
      intro e h; simp at h; subst h
      exact ErrIn.between (.refl _) _ (by simp)
    | some n => exact ⟨ha, by intro e h; simp at h⟩
  · have ha : Adv t ⟨r', t.off + utf8Len ('-' :: ds)⟩ := ⟨'-' :: ds, by simp [h2], rfl⟩
    rw [h5]
    cases I128.ofInt? (-(n : Int)) with
    | none =>
      refine ⟨ha, ?_⟩
      intro e h; simp at h; subst h
      exact ErrIn.between (.refl _) _ (by simp)
    | some n => exact ⟨ha, by intro e h; simp at h⟩

theorem parseBitSequence_inv (t : Toks) : Inv t (parseBitSequence t) := by
  unfold parseBitSequence
  rcases token_cases '<' t with ⟨r, h1, h2⟩ | ⟨_, h2⟩
  · rw [h2]
    refine Inv.of_adv (b := ⟨r, t.off + '<'.utf8Size⟩) ⟨['<'], by simp [h1], by simp⟩ ?_
    simp only
    refine Inv.of_adv (takeWhile_adv (fun c => c == '0' || c == '1') _) ?_
    generalize (Toks.takeWhile (fun c => c == '0' || c == '1') _) = p
    obtain ⟨a, t2⟩ := p
    simp only
    rcases token_cases '>' t2 with ⟨r, h1, h2⟩ | ⟨_, h2⟩
    · rw [h2]; exact ⟨⟨['>'], by simp [h1], by simp⟩, by intro e h; simp at h⟩
    · rw [h2]; exact ⟨.refl _, by intro e h; simp at h; subst h; exact ErrIn.between (.refl _) _ (by simp)⟩
  · rw [h2]; exact ⟨.refl _, by intro e h; simp at h⟩

theorem parseIdent_inv (t : Toks) : Adv t (parseIdent u t).2 ∧ ∀ e, (parseIdent u t).1 = .error e → ErrIn t e := by
  rcases parseIdent_cases (u := u) t with ⟨_, h⟩ | ⟨c, cs, r, h1, _, _, _, h⟩ <;> rw [h]
  · exact ⟨.refl _, by intro e h; simp at h; subst h; exact ErrIn.atOne (.refl _) _⟩
  · exact ⟨⟨_, h1, rfl⟩, by intro e h; simp at h⟩

theorem parseFieldName_inv (t : Toks) :
    Adv t (parseFieldName u t).2 ∧ ∀ e, (parseFieldName u t).1 = .error e → ErrIn t e := by
  have h := parseString_inv t
  unfold parseFieldName
  split
  · next h1 => rw [h1] at h; exact ⟨h.1, by intro e h; simp at h⟩
  · next h1 => rw [h1] at h; exact ⟨h.1, by intro e he; simp at he; subst he; exact h.2 _ rfl⟩
  · exact parseIdent_inv t

theorem parseOptionalVariantIdent_adv (t : Toks) : Adv t (parseOptionalVariantIdent u t).2 := by
  unfold parseOptionalVariantIdent
  have h : Adv t (parseIString t).2 := by
    obtain ⟨r, o⟩ := t
    cases r with
    | nil => exact .refl _
    | cons c r =>
      unfold parseIString
      simp only [Toks.next]
      split
      · exact Adv.cons
      · refine Adv.cons.trans ?_
        have := (parseString_inv ⟨r, o + c.utf8Size⟩).1
        split <;> (next h => rw [h] at this; exact this)
  split
  · next h1 => rw [h1] at h; exact h
  · have := (parseIdent_inv (u := u) t).1
    split
    · next h1 => rw [h1] at this; exact this
    · exact .refl _

/-! ### Recursive parsers -/

/-- A result exists, advances the tokens, and (under the hypothesis `H`) errors are inside the input. -/
def RInv {α : Type} (H : Prop) (t : Toks) (r : Option (Except ParseError α × Toks)) : Prop :=
  ∃ x t', r = some (x, t') ∧ Adv t t' ∧ ∀ e, x = .error e → H → ErrIn t e

/-- The same for results with optional errors. -/
def RInvO {α : Type} (H : Prop) (t : Toks) (r : RRes α) : Prop :=
  ∃ x t', r = some (x, t') ∧ Adv t t' ∧ ∀ e, x = .error (some e) → H → ErrIn t e

/-- After any opening bracket that is ahead. -/
def Opens (P : Toks → Prop) (t : Toks) : Prop := ∀ t' t1 c, Adv t t' → (c = '(' ∨ c = '{') → t'.token c = (true, t1) → P t1

theorem Opens.of_adv {P : Toks → Prop} {a b : Toks} (h : Opens P a) (h' : Adv a b) : Opens P b :=
  fun t' t1 c ha => h t' t1 c (h'.trans ha)

theorem sepRest_inv {α : Type} {H : Prop} {item : Toks → Option (Except ParseError α × Toks)} {P : Toks → Prop} (hP : ∀ a b, Adv a b → P a → P b)
    (hi : ∀ t, P t → RInv H t (item t)) (s : Char) :
    ∀ (fuel : Nat) (acc : List α) (t : Toks), P t → t.rest.length < fuel →
      RInv H t (sepRest item (skipSpacedSep u s) fuel acc t) := by
  intro fuel
  induction fuel with
  | zero => intro acc t _ h; omega
  | succ fuel ih =>
    intro acc t hn hf
    unfold sepRest
    have hs := sep_adv (u := u) s t
    cases hsep : skipSpacedSep u s t with
    | mk b t1 =>
      rw [hsep] at hs
      cases b with
      | false => exact ⟨_, t, rfl, .refl t, by intro e h; cases h⟩
      | true =>
        have hl := sep_lt hsep
        obtain ⟨x, t2, h1, h2, h3⟩ := hi t1 (hP _ _ hs hn)
        simp only [h1]
        cases x with
        | error e => exact ⟨_, t, rfl, .refl t, by intro e' h H; cases h; exact (h3 e rfl H).of_adv hs⟩
        | ok a =>
          have hl2 := h2.le
          obtain ⟨y, t3, h4, h5, h6⟩ := ih (acc ++ [a]) t2 (hP _ _ (hs.trans h2) hn) (by omega)
          exact ⟨y, t3, h4, hs.trans (h2.trans h5), fun e he H => (h6 e he H).of_adv (hs.trans h2)⟩

theorem sepByErr_inv {α : Type} {H : Prop} {item : Toks → Option (Except ParseError α × Toks)} {P : Toks → Prop} (hP : ∀ a b, Adv a b → P a → P b)
    (hi : ∀ t, P t → RInv H t (item t)) (s : Char) (t : Toks) (ht : P t) :
    RInv H t (sepByErr item (skipSpacedSep u s) t) := by
  unfold sepByErr
  obtain ⟨x, t2, h1, h2, h3⟩ := hi t ht
  simp only [h1]
  cases x with
  | error e => exact ⟨_, t, rfl, .refl t, by intro e' h H; cases h; exact h3 e rfl H⟩
  | ok a =>
    have hl2 := h2.le
    obtain ⟨y, t3, h4, h5, h6⟩ := sepRest_inv (u := u) hP hi s (t2.rest.length + 1) [a] t2 (hP _ _ h2 ht) (by omega)
    exact ⟨y, t3, h4, h2.trans h5, fun e he H => (h6 e he H).of_adv h2⟩

theorem parseField_inv {H : Prop} {pv : Toks → VRes} {P : Toks → Prop} (hP : ∀ a b, Adv a b → P a → P b)
    (hi : ∀ t, P t → RInv H t (pv t)) (t : Toks) (ht : P t) :
    RInv H t (parseField u pv t) := by
  unfold parseField
  have h := parseFieldName_inv (u := u) t
  cases hf : parseFieldName u t with
  | mk x t1 =>
    rw [hf] at h
    cases x with
    | error e => exact ⟨_, _, rfl, h.1, by intro e' he _; cases he; exact h.2 e rfl⟩
    | ok name =>
      have hs := sep_adv (u := u) ':' t1
      cases hsep : skipSpacedSep u ':' t1 with
      | mk b t2 =>
        rw [hsep] at hs
        have h12 := h.1.trans hs
        simp only [hsep]
        cases b with
        | false => exact ⟨_, _, rfl, h12, by intro e' he _; cases he; exact ErrIn.atOne h12 _⟩
        | true =>
          obtain ⟨x, t3, h1, h2, h3⟩ := hi t2 (hP _ _ h12 ht)
          simp only [h1]
          cases x with
          | error e => exact ⟨_, _, rfl, h12.trans h2, by intro e' he H; cases he; exact (h3 e rfl H).of_adv h12⟩
          | ok v => exact ⟨_, _, rfl, h12.trans h2, by intro e' he; cases he⟩

theorem parseNamed_inv {H : Prop} {pv : Toks → VRes} {P : Toks → Prop} (hP : ∀ a b, Adv a b → P a → P b)
    (hi : ∀ t, P t → RInv H t (pv t)) (t : Toks) (ht : Opens P t) :
    RInvO H t (parseNamedComposite u pv t) := by
  unfold parseNamedComposite
  have h1 := token_adv '{' t
  cases ht1 : t.token '{' with
  | mk b t1 =>
    rw [ht1] at h1
    cases b with
    | false => exact ⟨_, _, rfl, h1, by intro e he; cases he⟩
    | true =>
      have h2 := h1.trans (skipWs_adv (u := u) t1)
      have h3 := token_adv '}' (skipWs u t1)
      cases ht3 : (skipWs u t1).token '}' with
      | mk b t3 =>
        rw [ht3] at h3
        have h23 := h2.trans h3
        simp only [ht3]
        cases b with
        | true => exact ⟨_, _, rfl, h23, by intro e he; cases he⟩
        | false =>
          obtain ⟨x, t4, h4, h5, h6⟩ := sepByErr_inv (u := u) hP (fun t ht => parseField_inv (u := u) hP hi t ht) ',' t3
            (hP _ _ ((skipWs_adv (u := u) t1).trans h3) (ht t t1 '{' (.refl t) (.inr rfl) ht1))
          simp only [h4]
          cases x with
          | error e => exact ⟨_, _, rfl, h23.trans h5, by intro e' he H; cases he; exact (h6 e rfl H).of_adv h23⟩
          | ok vals =>
            simp only
            have h7 := (h23.trans h5).trans (skipWs_adv (u := u) t4)
            have h8 := token_adv '}' (skipWs u t4)
            cases ht6 : (skipWs u t4).token '}' with
            | mk b t6 =>
              rw [ht6] at h8
              cases b with
              | false => exact ⟨_, _, rfl, h7.trans h8, by intro e' he _; cases he; exact ErrIn.atOne (h7.trans h8) _⟩
              | true => exact ⟨_, _, rfl, h7.trans h8, by intro e he; cases he⟩

theorem parseUnnamed_inv {H : Prop} {pv : Toks → VRes} {P : Toks → Prop} (hP : ∀ a b, Adv a b → P a → P b)
    (hi : ∀ t, P t → RInv H t (pv t)) (t : Toks) (ht : Opens P t) :
    RInvO H t (parseUnnamedComposite u pv t) := by
  unfold parseUnnamedComposite
  have h1 := token_adv '(' t
  cases ht1 : t.token '(' with
  | mk b t1 =>
    rw [ht1] at h1
    cases b with
    | false => exact ⟨_, _, rfl, h1, by intro e he; cases he⟩
    | true =>
      have h2 := h1.trans (skipWs_adv (u := u) t1)
      have h3 := token_adv ')' (skipWs u t1)
      cases ht3 : (skipWs u t1).token ')' with
      | mk b t3 =>
        rw [ht3] at h3
        have h23 := h2.trans h3
        simp only [ht3]
        cases b with
        | true => exact ⟨_, _, rfl, h23, by intro e he; cases he⟩
        | false =>
          obtain ⟨x, t4, h4, h5, h6⟩ := sepByErr_inv (u := u) hP hi ',' t3
            (hP _ _ ((skipWs_adv (u := u) t1).trans h3) (ht t t1 '(' (.refl t) (.inl rfl) ht1))
          simp only [h4]
          cases x with
          | error e => exact ⟨_, _, rfl, h23.trans h5, by intro e' he H; cases he; exact (h6 e rfl H).of_adv h23⟩
          | ok vals =>
            simp only
            have h7 := (h23.trans h5).trans (skipWs_adv (u := u) t4)
            have h8 := token_adv ')' (skipWs u t4)
            cases ht6 : (skipWs u t4).token ')' with
            | mk b t6 =>
              rw [ht6] at h8
              cases b with
              | false => exact ⟨_, _, rfl, h7.trans h8, by intro e' he _; cases he; exact ErrIn.atOne (h7.trans h8) _⟩
              | true => exact ⟨_, _, rfl, h7.trans h8, by intro e he; cases he⟩

theorem orAlt_inv {α : Type} {H : Prop} {t : Toks} {r : RRes α} {k : Unit → RRes α} (h1 : RInvO H t r)
    (h2 : RInvO H t (k ())) : RInvO H t (orAlt r k) := by
  obtain ⟨x, t', rfl, ha, he⟩ := h1
  unfold orAlt
  split
  · exact h2
  · exact ⟨x, t', rfl, ha, he⟩

theorem RInvO.map {α β : Type} {H : Prop} {t : Toks} {r : RRes α} (f : α → β) (h : RInvO H t r) :
    RInvO H t (r.map (PRes.map f)) := by
  obtain ⟨x, t', rfl, ha, he⟩ := h
  cases x with
  | ok a => exact ⟨_, _, rfl, ha, by intro e h; cases h⟩
  | error e => exact ⟨_, _, rfl, ha, by intro e' h; cases h; exact he _ rfl⟩

theorem Inv.toR {α : Type} {H : Prop} {t : Toks} {r : PRes α} (h : Inv t r) : RInvO H t (some r) :=
  ⟨r.1, r.2, rfl, h.1, fun e he _ => h.2 e he⟩

theorem Inv.mapToR {α β : Type} {H : Prop} {t : Toks} {r : PRes α} (f : α → β) (h : Inv t r) :
    RInvO H t (some (r.map f)) := RInvO.map f h.toR

theorem RInvO.of_adv {α : Type} {H : Prop} {a b : Toks} {r : RRes α} (h : Adv a b) (h2 : RInvO H b r) :
    RInvO H a r := by
  obtain ⟨x, t', rfl, ha, he⟩ := h2
  exact ⟨_, _, rfl, h.trans ha, fun e h' H => (he e h' H).of_adv h⟩

theorem parseVariant_inv {H : Prop} {pv : Toks → VRes} {P : Toks → Prop} (hP : ∀ a b, Adv a b → P a → P b)
    (hi : ∀ t, P t → RInv H t (pv t)) (t : Toks) (ht : Opens P t) :
    RInvO H t (parseVariant u pv t) := by
  unfold parseVariant
  have h1 := parseOptionalVariantIdent_adv (u := u) t
  cases hv : parseOptionalVariantIdent u t with
  | mk x t1 =>
    rw [hv] at h1
    cases x with
    | none => exact ⟨_, _, rfl, h1, by intro e he; cases he⟩
    | some ident =>
      simp only
      have h2 := h1.trans (skipWs_adv (u := u) t1)
      have := orAlt_inv (parseNamed_inv (u := u) hP hi (skipWs u t1) (ht.of_adv h2))
        (k := fun _ => orAlt (parseUnnamedComposite u pv (skipWs u t1)) (fun _ => some (.error none, skipWs u t1)))
        (orAlt_inv (parseUnnamed_inv (u := u) hP hi (skipWs u t1) (ht.of_adv h2))
          (k := fun _ => some (.error none, skipWs u t1))
          ⟨_, _, rfl, .refl _, by intro e he; cases he⟩)
      obtain ⟨y, t3, h3, h4, h5⟩ := this.of_adv h2
      rw [h3]
      cases y with
      | ok c => exact ⟨_, _, rfl, h4, by intro e he; cases he⟩
      | error e => exact ⟨_, _, rfl, h4, by intro e' he; cases he; exact h5 _ rfl⟩

theorem parseBuiltin_inv {H : Prop} {pv : Toks → VRes} {P : Toks → Prop} (hP : ∀ a b, Adv a b → P a → P b)
    (hi : ∀ t, P t → RInv H t (pv t)) (t : Toks) (ht : Opens P t) :
    RInv H t (parseBuiltin u pv t) := by
  unfold parseBuiltin
  simp only
  have key : RInvO H t (orAlt (some ((parseBool t).map Value.bool)) fun _ =>
      orAlt (some ((parseChar t).map Value.char)) fun _ =>
      orAlt (some ((parseString t).map Value.string)) fun _ =>
      orAlt (some ((parseNumber t).map Value.primitive)) fun _ =>
      orAlt ((parseNamedComposite u pv t).map (PRes.map fun c => .mk (.composite c) ())) fun _ =>
      orAlt ((parseUnnamedComposite u pv t).map (PRes.map fun c => .mk (.composite c) ())) fun _ =>
      orAlt (some ((parseBitSequence t).map Value.bitSequence)) fun _ =>
      orAlt ((parseVariant u pv t).map (PRes.map fun v => .mk (.variant v) ())) fun _ =>
      some (.error none, t)) := by
    refine orAlt_inv ((parseBool_inv t).mapToR Value.bool) ?_
    refine orAlt_inv ((parseChar_inv t).mapToR Value.char) ?_
    refine orAlt_inv ((parseString_inv t).mapToR Value.string) ?_
    refine orAlt_inv ((parseNumber_inv t).mapToR Value.primitive) ?_
    refine orAlt_inv ((parseNamed_inv (u := u) hP hi t ht).map _) ?_
    refine orAlt_inv ((parseUnnamed_inv (u := u) hP hi t ht).map _) ?_
    refine orAlt_inv ((parseBitSequence_inv t).mapToR Value.bitSequence) ?_
    refine orAlt_inv ((parseVariant_inv (u := u) hP hi t ht).map _) ?_
    exact ⟨_, _, rfl, .refl _, by intro e he; cases he⟩
  obtain ⟨y, t3, h3, h4, h5⟩ := key
  rw [h3]
  cases y with
  | ok v => exact ⟨_, _, rfl, h4, by intro e he; cases he⟩
  | error e =>
    cases e with
    | some e => exact ⟨_, _, rfl, h4, by intro e' he H; cases he; exact h5 _ rfl H⟩
    | none => exact ⟨_, _, rfl, h4, by intro e' he H; cases he; exact ErrIn.at h4 _⟩

/-- Custom parsers whose errors are located inside the string they were given. -/
def CustomErrOk (cps : List CustomParser) : Prop :=
  ∀ s e c', runCustom cps s = (some (.error e), c') → ErrIn ⟨s, 0⟩ e

theorem brackets_append (a b : Str) : brackets (a ++ b) = brackets a + brackets b := by simp [brackets]

theorem brackets_le (s : Str) : brackets s ≤ s.length := List.countP_le_length

theorem Adv.brackets {a b : Toks} (h : Adv a b) : brackets b.rest ≤ brackets a.rest := by
  obtain ⟨p, h1, -⟩ := h
  rw [h1, brackets_append]; omega

theorem opens_brackets {n : Nat} {t : Toks} (h : brackets t.rest < n + 1) : Opens (fun t => brackets t.rest < n) t := by
  intro t' t1 c ha hc ht
  have := ha.brackets
  rcases token_cases c t' with ⟨r, h1, h2⟩ | ⟨_, h2⟩
  · rw [h2] at ht; cases ht
    rw [h1] at this
    have h3 : brackets (c :: r) = brackets r + 1 := by
      rcases hc with rfl | rfl <;> simp [SV.brackets]
    simp only; omega
  · rw [h2] at ht; cases ht

theorem parseValueN_brackets (cps : List CustomParser) (n : Nat) : ∀ t : Toks, brackets t.rest < n →
    RInv (CustomErrOk cps) t (parseValueN u cps n t) := by
  induction n with
  | zero => intro t h; omega
  | succ n ih =>
    intro t ht
    unfold parseValueN parseValueStep
    cases hc : runCustom cps t.rest with
    | mk r cursor =>
      cases r with
      | none => exact parseBuiltin_inv (fun a b h h' => Nat.lt_of_le_of_lt h.brackets h') ih t (opens_brackets ht)
      | some r =>
        cases r with
        | ok v => exact ⟨_, _, rfl, nextN_adv _ _, by intro e he; cases he⟩
        | error e =>
          refine ⟨_, _, rfl, .refl _, ?_⟩
          intro e' he H
          cases he
          obtain ⟨⟨pre, r, h1, h2⟩, h3⟩ := H _ _ _ hc
          simp at h1 h2
          refine ⟨⟨pre, r, h1, by simp [h2]⟩, ?_⟩
          intro l hl
          simp only [Option.map_eq_some_iff] at hl
          obtain ⟨l', hl', rfl⟩ := hl
          have := h3 l' hl'
          simp; omega

theorem parseValueN_inv (cps : List CustomParser) (n : Nat) (t : Toks) (h : t.rest.length < n) :
    RInv (CustomErrOk cps) t (parseValueN u cps n t) := parseValueN_brackets cps n t (Nat.lt_of_le_of_lt (brackets_le _) h)

/-- The parser always returns, and more fuel makes no difference to whether it does. -/
theorem parse_total (cps : List CustomParser) (s : Str) : ∃ r rest, parse u cps s = some (r, rest) := by
  obtain ⟨x, t', h, _⟩ := parseValueN_inv (u := u) cps (s.length + 1) (Toks.new s) (by simp [Toks.new])
  exact ⟨x, t'.rest, by simp [parse, h]⟩

end SV
