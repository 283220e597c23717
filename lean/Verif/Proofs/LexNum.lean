import Verif.Proofs.Lex
/-
Numbers and identifiers.
-/
namespace SV

/-- Digits and underscores. -/
def numCh (c : Char) : Bool := isDigit c || c == '_'

theorem takeNum_true (s : Str) (o : Nat) : takeWhileS numPred true s o =
    (s.takeWhile numCh, true, ⟨s.dropWhile numCh, o + utf8Len (s.takeWhile numCh)⟩) := by
  induction s generalizing o with
  | nil => rfl
  | cons c r ih =>
    unfold takeWhileS
    by_cases h : isDigit c = true
    · simp [numPred, numCh, h, ih, Nat.add_assoc]
    · by_cases h2 : c = '_'
      · subst h2
        have h : isDigit '_' = false := rfl
        simp [numPred, numCh, h, ih, Nat.add_assoc]
      · have h2 : (c == '_') = false := by simpa using h2
        simp [numPred, numCh, h, h2]

theorem takeNum_digit {c : Char} (h : isDigit c = true) (s : Str) (o : Nat) :
    takeWhileS numPred false (c :: s) o =
    (c :: s.takeWhile numCh, true, ⟨s.dropWhile numCh, o + utf8Len (c :: s.takeWhile numCh)⟩) := by
  unfold takeWhileS
  have e : numPred false c = (true, true) := by simp [numPred, h]
  simp only [e, takeNum_true s (o + c.utf8Size)]
  simp [Nat.add_assoc]

theorem takeNum_none {s : Str} (h : HeadNot isDigit s) (o : Nat) :
    takeWhileS numPred false s o = ([], false, ⟨s, o⟩) := by
  cases s with
  | nil => rfl
  | cons c r => have := HeadNot_cons.1 h; simp [takeWhileS, numPred, this]

theorem DecVal_iff {t : Str} {n : Nat} : DecVal t n ↔
    ∃ c cs, t = c :: cs ∧ isDigit c = true ∧ (∀ d ∈ cs, numCh d = true) ∧
      n = digitsVal (t.filter isDigit) := by
  have snoc : ∀ (l : Str) (c : Char), digitsVal (l ++ [c]) = 10 * digitsVal l + (c.toNat - 48) := by
    intro l c; simp [digitsVal, List.foldl_append]
  constructor
  · intro h
    induction h with
    | @single c hc => exact ⟨c, [], rfl, hc, by simp, by simp [hc, digitsVal]⟩
    | @digit t n c h hc ih =>
      obtain ⟨d, ds, rfl, h1, h2, h3⟩ := ih
      refine ⟨d, ds ++ [c], rfl, h1, ?_, ?_⟩
      · intro e he
        simp at he
        rcases he with he | rfl
        · exact h2 e he
        · simp [numCh, hc]
      · rw [List.filter_append]
        simp only [List.filter_cons, hc, if_true, List.filter_nil, snoc]
        rw [h3, List.filter_cons, if_pos h1]
    | @underscore t n h ih =>
      obtain ⟨d, ds, rfl, h1, h2, h3⟩ := ih
      refine ⟨d, ds ++ ['_'], rfl, h1, ?_, ?_⟩
      · intro e he
        simp at he
        rcases he with he | rfl
        · exact h2 e he
        · rfl
      · rw [List.filter_append]
        have : List.filter isDigit ['_'] = [] := rfl
        rw [this, List.append_nil]; exact h3
  · rintro ⟨c, cs, rfl, h1, h2, rfl⟩
    have key : ∀ (cs t : Str) (n : Nat), DecVal t n → (∀ d ∈ cs, numCh d = true) →
        DecVal (t ++ cs) ((cs.filter isDigit).foldl (fun n c => 10 * n + (c.toNat - 48)) n) := by
      intro cs
      induction cs with
      | nil => intro t n h _; simpa using h
      | cons d cs ih =>
        intro t n h h2
        have h2' : ∀ d ∈ cs, numCh d = true := fun e he => h2 e (by simp [he])
        have hd := h2 d (by simp)
        simp only [numCh, Bool.or_eq_true, beq_iff_eq] at hd
        have e : t ++ d :: cs = (t ++ [d]) ++ cs := by simp
        rw [e]
        by_cases hdd : isDigit d = true
        · simp only [List.filter_cons, hdd, if_true, List.foldl_cons]
          exact ih _ _ (.digit h hdd) h2'
        · have hd := hd.resolve_left hdd
          subst hd
          simp only [List.filter_cons, hdd, Bool.false_eq_true, if_false]
          exact ih _ _ (.underscore h) h2'
    have := key cs [c] _ (.single h1) h2
    simpa [digitsVal, h1] using this

theorem DecVal.head {t : Str} {n : Nat} (h : DecVal t n) : ∃ c cs, t = c :: cs ∧ isDigit c = true := by
  obtain ⟨c, cs, h1, h2, _⟩ := DecVal_iff.1 h; exact ⟨c, cs, h1, h2⟩

theorem DecVal.take {t : Str} {n : Nat} (h : DecVal t n) {rest : Str} (hr : NotNumCont rest) (o : Nat) :
    takeWhileS numPred false (t ++ rest) o = (t, true, ⟨rest, o + utf8Len t⟩) ∧
      digitsVal (t.filter isDigit) = n := by
  obtain ⟨c, cs, rfl, h1, h2, h3⟩ := DecVal_iff.1 h
  have hr' : HeadNot numCh rest := by
    cases rest with
    | nil => exact HeadNot_nil
    | cons d r => rw [HeadNot_cons]; simp [NotNumCont] at hr; simp [numCh, hr]
  rw [List.cons_append, takeNum_digit h1, (takeWhile_split h2 hr').1, (takeWhile_split h2 hr').2]
  exact ⟨rfl, h3.symm⟩

theorem digit_ne_sign {c : Char} (h : isDigit c = true) : c ≠ '+' ∧ c ≠ '-' := by
  constructor <;> (rintro rfl; revert h; decide)

theorem utf8Len_pos {s : Str} (h : s ≠ []) : 0 < utf8Len s := by
  cases s with
  | nil => exact absurd rfl h
  | cons c r => have := utf8Size_pos c; simp; omega

theorem parseNumber_complete {p : Primitive} {s : Str} (h : NumLit p s) {rest : Str}
    (hr : NotNumCont rest) (o : Nat) :
    parseNumber ⟨s ++ rest, o⟩ = (.ok p, ⟨rest, o + utf8Len s⟩) := by
  cases h with
  | plain h =>
    obtain ⟨h3, h4⟩ := h.take hr o
    obtain ⟨c, cs, rfl, hc⟩ := h.head
    have h1 := (digit_ne_sign hc).1
    have h2 := (digit_ne_sign hc).2
    have hp : 0 < utf8Len (c :: cs) := utf8Len_pos (by simp)
    simp only [parseNumber, List.cons_append, token_ne h1, token_ne h2] at h3 ⊢
    simp only [Bool.false_eq_true, if_false, h3, h4, Bool.not_false, if_true, U128.ofNat?_eq_some.2 rfl]
    rw [if_neg (by omega)]
    simp
  | plus h =>
    obtain ⟨h3, h4⟩ := h.take hr (o + '+'.utf8Size)
    have hp : ('+' : Char).utf8Size = 1 := rfl
    simp only [parseNumber, List.cons_append, token_eq, h3, h4, if_true, U128.ofNat?_eq_some.2 rfl]
    rw [if_neg (by omega)]
    simp; omega
  | @minus t k n h hn =>
    obtain ⟨h3, h4⟩ := h.take hr (o + '-'.utf8Size)
    have hp : ('-' : Char).utf8Size = 1 := rfl
    have : ('-' : Char) ≠ '+' := by decide
    simp only [parseNumber, List.cons_append, token_ne this, token_eq]
    simp only [Bool.false_eq_true, if_false, h3, h4, I128.ofInt?_eq_some.2 hn]
    rw [if_neg (by omega)]
    simp; omega

/-- Everything `parse_number` does, by what the input starts with. -/
theorem parseNumber_cases (t : Toks) :
    -- not a number
    ((∀ c r, t.rest = c :: r → isDigit c = false ∧ c ≠ '+' ∧ c ≠ '-') ∧ parseNumber t = (.error none, t)) ∨
    -- a sign and no digit
    (∃ sg r, (sg = '+' ∨ sg = '-') ∧ t.rest = sg :: r ∧ HeadNot isDigit r ∧
      parseNumber t = (.error (some (ParseErrorKind.numExpectedDigit.between (t.off + 1) (t.off + 1 + 1))),
        ⟨r, t.off + 1⟩)) ∨
    -- an unsigned number
    (∃ sg ds r n, (sg = [] ∨ sg = ['+']) ∧ t.rest = sg ++ ds ++ r ∧ NotNumCont r ∧ DecVal ds n ∧
      parseNumber t = (match U128.ofNat? n with
        | some n => (.ok (.u128 n), ⟨r, t.off + utf8Len (sg ++ ds)⟩)
        | none => (.error (some (ParseErrorKind.numPosOverflow.between t.off (t.off + utf8Len (sg ++ ds)))),
            ⟨r, t.off + utf8Len (sg ++ ds)⟩))) ∨
    -- a negative number
    (∃ ds r n, t.rest = '-' :: ds ++ r ∧ NotNumCont r ∧ DecVal ds n ∧
      parseNumber t = (match I128.ofInt? (-(n : Int)) with
        | some n => (.ok (.i128 n), ⟨r, t.off + utf8Len ('-' :: ds)⟩)
        | none => (.error (some (ParseErrorKind.numNegOverflow.between t.off (t.off + utf8Len ('-' :: ds)))),
            ⟨r, t.off + utf8Len ('-' :: ds)⟩))) := by
  obtain ⟨rest, o⟩ := t
  have hp : ('+' : Char).utf8Size = 1 := rfl
  have hm : ('-' : Char).utf8Size = 1 := rfl
  have hpm : ('-' : Char) ≠ '+' := by decide
  have tail : ∀ (c : Char) (r : Str), isDigit c = true →
      DecVal (c :: r.takeWhile numCh) (digitsVal ((c :: r.takeWhile numCh).filter isDigit)) ∧
      NotNumCont (r.dropWhile numCh) := by
    intro c r hc
    refine ⟨DecVal_iff.2 ⟨c, _, rfl, hc, takeWhile_all _ _, rfl⟩, ?_⟩
    have := dropWhile_head numCh r
    cases hd : r.dropWhile numCh with
    | nil => trivial
    | cons d r' =>
      rw [hd, HeadNot_cons] at this
      simpa [NotNumCont, numCh] using this
  cases rest with
  | nil => left; exact ⟨by simp, by simp [parseNumber, takeWhileS]⟩
  | cons c r =>
    by_cases h1 : c = '+'
    · subst h1
      by_cases h2 : HeadNot isDigit r
      · right; left
        refine ⟨'+', r, by simp, rfl, h2, ?_⟩
        simp [parseNumber, takeNum_none h2, hp]
      · right; right; left
        cases r with
        | nil => exact absurd HeadNot_nil h2
        | cons d r =>
          rw [HeadNot_cons] at h2
          have h2 : isDigit d = true := by simpa using h2
          obtain ⟨h3, h4⟩ := tail d r h2
          refine ⟨['+'], _, _, _, by simp, ?_, h4, h3, ?_⟩
          · simp
          · simp only [parseNumber, token_eq, takeNum_digit h2, if_true]
            rw [if_neg (by simp only [hp]; omega)]
            simp only [Bool.not_true, Bool.false_eq_true, if_false]
            have e : o + '+'.utf8Size + utf8Len (d :: List.takeWhile numCh r) = o + utf8Len (['+'] ++ d :: List.takeWhile numCh r) := by
              simp; omega
            rw [e]
            generalize U128.ofNat? _ = q
            cases q <;> rfl
    · by_cases h1' : c = '-'
      · subst h1'
        by_cases h2 : HeadNot isDigit r
        · right; left
          refine ⟨'-', r, by simp, rfl, h2, ?_⟩
          simp [parseNumber, token_ne hpm, takeNum_none h2, hm]
        · right; right; right
          cases r with
          | nil => exact absurd HeadNot_nil h2
          | cons d r =>
            rw [HeadNot_cons] at h2
            have h2 : isDigit d = true := by simpa using h2
            obtain ⟨h3, h4⟩ := tail d r h2
            refine ⟨_, _, _, ?_, h4, h3, ?_⟩
            · simp
            · simp only [parseNumber, token_ne hpm, token_eq, Bool.false_eq_true, if_false, takeNum_digit h2]
              rw [if_neg (by simp only [hm]; omega)]
              simp only [Bool.not_true, Bool.false_eq_true, if_false]
              have e : o + '-'.utf8Size + utf8Len (d :: List.takeWhile numCh r) = o + utf8Len ('-' :: d :: List.takeWhile numCh r) := by
                simp; omega
              rw [e]
              generalize I128.ofInt? _ = q
              cases q <;> rfl
      · by_cases h2 : isDigit c = true
        · right; right; left
          obtain ⟨h3, h4⟩ := tail c r h2
          refine ⟨[], _, _, _, by simp, ?_, h4, h3, ?_⟩
          · simp
          · have hpos := utf8Size_pos c
            simp only [parseNumber, token_ne h1, token_ne h1', Bool.false_eq_true, if_false, takeNum_digit h2]
            rw [if_neg (by simp; omega)]
            simp only [Bool.not_true, Bool.false_eq_true, if_false, List.nil_append, Bool.not_false, if_true]
            generalize U128.ofNat? _ = q
            cases q <;> rfl
        · left
          refine ⟨?_, ?_⟩
          · intro d r' e; cases e; exact ⟨by simpa using h2, h1, h1'⟩
          · simp [parseNumber, token_ne h1, token_ne h1', takeNum_none (HeadNot_cons.2 (by simpa using h2))]

theorem parseNumber_none {r : Str} {o : Nat} (h : ∀ c r', r = c :: r' → isDigit c = false ∧ c ≠ '+' ∧ c ≠ '-') :
    parseNumber ⟨r, o⟩ = (.error none, ⟨r, o⟩) := by
  rcases parseNumber_cases ⟨r, o⟩ with ⟨_, h2⟩ | ⟨sg, r', h1, h2, _⟩ | ⟨sg, ds, r', n, h1, h2, h3, h4, _⟩ |
      ⟨ds, r', n, h2, h3, h4, _⟩
  · exact h2
  · have := h _ _ h2; rcases h1 with rfl | rfl <;> simp at this
  · obtain ⟨c, cs, rfl, hc⟩ := h4.head
    rcases h1 with rfl | rfl
    · have := h _ _ h2; simp [hc] at this
    · have := h _ _ h2; simp at this
  · have := h _ _ h2; simp at this

theorem parseNumber_sound {p : Primitive} {t t' : Toks} (h : parseNumber t = (.ok p, t')) :
    ∃ x, NumLit p x ∧ t.rest = x ++ t'.rest ∧ t'.off = t.off + utf8Len x ∧ NotNumCont t'.rest := by
  rcases parseNumber_cases t with ⟨_, h2⟩ | ⟨sg, r', h1, h2, _, h3⟩ | ⟨sg, ds, r', n, h1, h2, h3, h4, h5⟩ |
      ⟨ds, r', n, h2, h3, h4, h5⟩
  · rw [h2] at h; simp at h
  · rw [h3] at h; simp at h
  · rw [h5] at h
    cases hn : U128.ofNat? n with
    | none => simp [hn] at h
    | some n' =>
      rw [hn] at h
      simp only [Prod.mk.injEq, Except.ok.injEq] at h
      obtain ⟨rfl, rfl⟩ := h
      rw [U128.ofNat?_eq_some] at hn; subst hn
      refine ⟨sg ++ ds, ?_, h2, rfl, h3⟩
      rcases h1 with rfl | rfl
      · exact .plain h4
      · exact .plus h4
  · rw [h5] at h
    cases hn : I128.ofInt? (-(n : Int)) with
    | none => simp [hn] at h
    | some n' =>
      rw [hn] at h
      simp only [Prod.mk.injEq, Except.ok.injEq] at h
      obtain ⟨rfl, rfl⟩ := h
      rw [I128.ofInt?_eq_some] at hn
      exact ⟨'-' :: ds, .minus h4 hn, h2, rfl, h3⟩

/-! ### identifiers -/

variable {u : Uni}

/-- Characters that may continue an identifier. -/
def identCh (u : Uni) (c : Char) : Bool := u.alnum c || c == '_'

theorem takeWhile_takeWhile_sub {p q : Char → Bool} (hpq : ∀ c, p c = true → q c = true) (s : Str) :
    s.takeWhile p ++ (s.dropWhile p).takeWhile q = s.takeWhile q ∧
    (s.dropWhile p).dropWhile q = s.dropWhile q := by
  induction s with
  | nil => simp
  | cons c r ih =>
    by_cases h : p c = true
    · simp [h, hpq c h, ih]
    · simp [h]

/-- Everything `parse_ident` does. -/
theorem parseIdent_cases (t : Toks) :
    (HeadNot u.alpha t.rest ∧ parseIdent u t =
      (.error (ParseErrorKind.invalidStartingCharacterInIdent.atOne t.off), t)) ∨
    (∃ c cs r, t.rest = (c :: cs) ++ r ∧ u.alpha c = true ∧ (∀ d ∈ cs, identCh u d = true) ∧
      HeadNot (identCh u) r ∧ parseIdent u t = (.ok (c :: cs), ⟨r, t.off + utf8Len (c :: cs)⟩)) := by
  obtain ⟨rest, o⟩ := t
  by_cases h : HeadNot u.alpha rest
  · left
    refine ⟨h, ?_⟩
    have := takeWhileT_split (a := []) (by simp) h o
    simp only [List.nil_append] at this
    simp [parseIdent, Toks.skipWhile, Toks.takeWhile, this]
  · right
    cases rest with
    | nil => exact absurd HeadNot_nil h
    | cons c r =>
      rw [HeadNot_cons] at h
      have h : u.alpha c = true := by simpa using h
      have hc : identCh u c = true := by simp [identCh, alpha_alnum h]
      have sub := takeWhile_takeWhile_sub (p := u.alpha) (q := identCh u)
        (fun c h => by simp [identCh, alpha_alnum h]) (c :: r)
      refine ⟨c, r.takeWhile (identCh u), r.dropWhile (identCh u), by simp, h, takeWhile_all _ _,
        dropWhile_head _ _, ?_⟩
      have e1 : List.takeWhile (identCh u) (c :: r) = c :: r.takeWhile (identCh u) := by simp [hc]
      have e2 : List.dropWhile (identCh u) (c :: r) = r.dropWhile (identCh u) := by simp [hc]
      rw [e1, e2] at sub
      have e3 : (fun c => u.alnum c || c == '_') = identCh u := rfl
      simp only [parseIdent, Toks.skipWhile, Toks.takeWhile, takeWhileT_eq, e3, sub.2, Toks.slice]
      have hl : (List.takeWhile u.alpha (c :: r)).length ≠ 0 := by simp [h]
      rw [if_neg hl]
      have e4 : (c :: r).take ((c :: r).length - (r.dropWhile (identCh u)).length) = c :: r.takeWhile (identCh u) := by
        have : c :: r = (c :: r.takeWhile (identCh u)) ++ r.dropWhile (identCh u) := by simp
        conv => lhs; rw [this]
        rw [List.length_append, Nat.add_sub_cancel, List.take_left]
      rw [e4]
      have : utf8Len (List.takeWhile u.alpha (c :: r)) + utf8Len ((List.dropWhile u.alpha (c :: r)).takeWhile (identCh u)) = utf8Len (c :: r.takeWhile (identCh u)) := by
        rw [← sub.1]; simp
      rw [Nat.add_assoc, this]

theorem Ident.parse {s : Str} (h : Ident u s) {rest : Str} (hr : HeadNot (identCh u) rest) (o : Nat) :
    parseIdent u ⟨s ++ rest, o⟩ = (.ok s, ⟨rest, o + utf8Len s⟩) := by
  cases h with
  | @mk c cs hc hcs =>
    have hcs' : ∀ d ∈ cs, identCh u d = true := by
      intro d hd; have := hcs d hd; simpa [identCh] using this
    rcases parseIdent_cases (u := u) ⟨(c :: cs) ++ rest, o⟩ with ⟨h1, _⟩ | ⟨c', cs', r, h1, h2, h3, h4, h5⟩
    · simp [HeadNot_cons, hc] at h1
    · rw [h5]
      simp only [List.cons_append, List.cons.injEq] at h1
      obtain ⟨rfl, h1⟩ := h1
      have a := takeWhile_split hcs' hr
      have b := takeWhile_split h3 h4
      rw [h1] at a
      have e1 : cs' = cs := by rw [← b.1, a.1]
      have e2 : r = rest := by rw [← b.2, a.2]
      subst e1 e2; rfl

end SV
