import Verif.Proofs.FaultSound
/-
Up to where a fault is reported the text is the beginning of a text of some value.
-/
namespace SV

variable {u : Uni}

/-- `p` can be continued to something of the category. -/
def Continues (u : Uni) : FaultCat → Str → Prop
  | .val, p => ∃ more v, Text u NoCustom v (p ++ more)
  | .comp, p => ∃ more c, Txt u NoCustom (.comp c) (p ++ more)
  | .vals _, p => ∃ more vs, Txt u NoCustom (.vals vs) (p ++ more)
  | .fields _, p => ∃ more fs, Txt u NoCustom (.fields fs) (p ++ more)

/-- The text before the fault can be continued. -/
def ViableAt (u : Uni) (cat : FaultCat) (o : Nat) (s : Str) (e : ParseError) : Prop :=
  ∃ p r, s = p ++ r ∧ e.startLoc = o + utf8Len p ∧ Continues u cat p

theorem StrFault.viable {o : Nat} {s : Str} {e : ParseError} (h : StrFault o s e) :
    ∃ p r, s = p ++ r ∧ e.startLoc = o + utf8Len p ∧ ∃ more k, StrLit k (p ++ more) := by
  have snoc : ∀ {k b}, StrBody k b → StrBody (k ++ ['\n']) (b ++ ['\\', 'n']) := by
    intro k b h
    induction h with
    | nil => exact .esc .nl .nil
    | plain h1 h2 _ ih => exact .plain h1 h2 ih
    | esc he _ ih => exact .esc he ih
  cases h with
  | close h => exact ⟨_, [], by simp, rfl, ['"'], _, .mk h⟩
  | @escEnds k b h =>
    refine ⟨'"' :: b ++ ['\\'], [], by simp, rfl, ['n', '"'], k ++ ['\n'], ?_⟩
    have := StrLit.mk (snoc h)
    simpa using this
  | @esc k b c r h hc =>
    refine ⟨'"' :: b ++ ['\\'], c :: r, by simp, rfl, ['n', '"'], k ++ ['\n'], ?_⟩
    have := StrLit.mk (snoc h)
    simpa using this

theorem Ws.nil : Ws u [] := by intro c h; cases h

theorem true_text : Text u NoCustom (.bool true) ['t', 'r', 'u', 'e'] := .builtin .true_

theorem Fault.viable {cat : FaultCat} {o : Nat} {s : Str} {e : ParseError} (h : Fault u cat o s e)
    (he : e.err ≠ .charExpectedValidEscapeCode) : ViableAt u cat o s e := by
  have q : ('\'' : Char).utf8Size = 1 := rfl
  have b : ('\\' : Char).utf8Size = 1 := rfl
  have here : ∀ {o s k}, ViableAt u .val o s (ParseErrorKind.at k o) := fun {o s k} =>
    ⟨[], s, rfl, rfl, _, _, true_text⟩
  induction h with
  | noValue h => exact here
  | @char o s e h =>
    cases h with
    | ends => exact ⟨['\''], [], rfl, by simp [ParseErrorKind.atOne, q], ['a', '\''], .char 'a', .builtin (.char (.plain (by decide)))⟩
    | escEnds => exact absurd rfl he
    | esc h => exact absurd rfl he
    | @close c r hc h =>
      exact ⟨['\'', c], r, rfl, by simp [ParseErrorKind.atOne, q, Nat.add_assoc], ['\''], .char c, .builtin (.char (.plain hc))⟩
    | @escClose c d r hc h =>
      exact ⟨['\'', '\\', c], r, rfl, by simp [ParseErrorKind.atOne, q, b]; omega, ['\''], .char d, .builtin (.char (.esc hc))⟩
  | @string o s e h =>
    obtain ⟨p, r, h1, h2, more, k, h3⟩ := h.viable
    exact ⟨p, r, h1, h2, more, .string k, .builtin (.string h3)⟩
  | @number o s e h =>
    cases h with
    | @sign c r hc h =>
      have hz : DecVal ['0'] 0 := .single (c := '0') (by decide)
      rcases hc with rfl | rfl
      · exact ⟨['+'], r, rfl, rfl, ['0'], .primitive (.u128 ⟨0, by decide⟩), .builtin (.number (.plus hz))⟩
      · exact ⟨['-'], r, rfl, rfl, ['0'], .primitive (.i128 ⟨0, by decide, by decide⟩), .builtin (.number (.minus hz rfl))⟩
    | pos => exact ⟨[], _, rfl, rfl, _, _, true_text⟩
    | neg => exact ⟨[], _, rfl, rfl, _, _, true_text⟩
  | @bits o bs r h => exact ⟨_, r, rfl, rfl, ['>'], _, .builtin .bits⟩
  | composite h ih =>
    obtain ⟨p, r, h1, h2, more, c, h3⟩ := ih he
    exact ⟨p, r, h1, h2, more, _, .builtin (.composite h3)⟩
  | @variant o n x w s e hn hw h ih =>
    obtain ⟨p, r, rfl, h2, more, c, h3⟩ := ih he
    refine ⟨x ++ w ++ p, r, by simp, by rw [h2]; simp [Nat.add_assoc], more, .variant n c, ?_⟩
    have := Txt.variant hn hw h3
    rw [← List.append_assoc] at this
    exact .builtin this
  | @unnamed o w s e hw hs h ih =>
    obtain ⟨p, r, rfl, h2, more, vs, h3⟩ := ih he
    refine ⟨'(' :: w ++ p, r, by simp, by rw [h2]; simp [Nat.add_assoc], more ++ [')'], .unnamed vs, ?_⟩
    have := Txt.unnamed hw Ws.nil h3
    simpa [List.append_assoc] using this
  | @named o w s e hw hs h ih =>
    obtain ⟨p, r, rfl, h2, more, vs, h3⟩ := ih he
    refine ⟨'{' :: w ++ p, r, by simp, by rw [h2]; simp [Nat.add_assoc], more ++ ['}'], .named vs, ?_⟩
    have := Txt.named hw Ws.nil h3
    simpa [List.append_assoc] using this
  | val h ih =>
    obtain ⟨p, r, h1, h2, more, v, h3⟩ := ih he
    exact ⟨p, r, h1, h2, more, _, .val1 h3⟩
  | @valNext p o v x w3 w4 s e hx hw3 hw4 hs h ih =>
    obtain ⟨p, r, rfl, h2, more, vs, h3⟩ := ih he
    refine ⟨x ++ w3 ++ ',' :: w4 ++ p, r, by simp, by rw [h2]; simp [Nat.add_assoc], more, v :: vs, ?_⟩
    have := Txt.valCons hx hw3 hw4 h3
    rw [← List.append_assoc] at this
    exact this
  | @valClose p o v x w s hx hf hw hs =>
    refine ⟨x ++ w, s, rfl, rfl, [',', 't', 'r', 'u', 'e'], v :: [.bool true], ?_⟩
    have := Txt.valCons hx hw Ws.nil (.val1 true_text)
    simpa using this
  | @noName p o s h =>
    have := Txt.field1 (u := u) (.ident (.mk (c := 'a') (cs := []) (by rw [u.alpha_ascii _ (by decide)]; decide) (by simp))) Ws.nil Ws.nil true_text
    exact ⟨[], s, rfl, rfl, _, _, this⟩
  | @nameString p o s e h =>
    obtain ⟨p, r, h1, h2, more, k, h3⟩ := h.viable
    refine ⟨p, r, h1, h2, more ++ [':', 't', 'r', 'u', 'e'], [(k, .bool true)], ?_⟩
    have := Txt.field1 (u := u) (.quoted h3) Ws.nil Ws.nil true_text
    simpa using this
  | @colon p o k n w s hn hw hi hs =>
    refine ⟨n ++ w, s, rfl, rfl, [':', 't', 'r', 'u', 'e'], [(k, .bool true)], ?_⟩
    have := Txt.field1 (u := u) hn hw Ws.nil true_text
    simpa using this
  | @field p o k n w1 w2 s e hn hw1 hw2 hs h ih =>
    obtain ⟨p, r, rfl, h2, more, v, h3⟩ := ih he
    refine ⟨n ++ w1 ++ ':' :: w2 ++ p, r, by simp, by rw [h2]; simp [Nat.add_assoc], more, [(k, v)], ?_⟩
    have := Txt.field1 hn hw1 hw2 h3
    rw [← List.append_assoc] at this
    exact this
  | @fieldNext p o k v x w3 w4 s e hx hw3 hw4 hs h ih =>
    obtain ⟨p, r, rfl, h2, more, vs, h3⟩ := ih he
    refine ⟨x ++ w3 ++ ',' :: w4 ++ p, r, by simp, by rw [h2]; simp [Nat.add_assoc], more, (k, v) :: vs, ?_⟩
    obtain ⟨n, w1, w2, t, hk, hw1, hw2, ht, rfl⟩ := field_text hx
    have := Txt.fieldCons hk hw1 hw2 ht hw3 hw4 h3
    rw [← List.append_assoc] at this
    exact this
  | @fieldClose p o k v x w s hx hf hw hs =>
    refine ⟨x ++ w, s, rfl, rfl, [',', 'a', ':', 't', 'r', 'u', 'e'], (k, v) :: [(['a'], .bool true)], ?_⟩
    obtain ⟨n, w1, w2, t, hk, hw1, hw2, ht, rfl⟩ := field_text hx
    have ha := Txt.field1 (u := u) (.ident (.mk (c := 'a') (cs := []) (by rw [u.alpha_ascii _ (by decide)]; decide) (by simp))) Ws.nil Ws.nil true_text
    have := Txt.fieldCons hk hw1 hw2 ht hw Ws.nil ha
    simpa using this

/-- Where faults end: expected values have no end, numbers that do not fit end where the number ends, and all else is one byte. -/
theorem Fault.ends {cat : FaultCat} {o : Nat} {s : Str} {e : ParseError} (h : Fault u cat o s e) :
    (e.err = .expectedValue ∧ e.endLoc = none) ∨
    ((e.err = .numPosOverflow ∨ e.err = .numNegOverflow) ∧
      ∃ p x r, s = p ++ x ++ r ∧ e.startLoc = o + utf8Len p ∧ e.endLoc = some (o + utf8Len (p ++ x))) ∨
    (e.err ≠ .expectedValue ∧ e.err ≠ .numPosOverflow ∧ e.err ≠ .numNegOverflow ∧ e.endLoc = some (e.startLoc + 1)) := by
  have lift : ∀ {o o' : Nat} {s s' pre : Str} {e : ParseError}, s' = pre ++ s → o = o' + utf8Len pre →
      ((e.err = .expectedValue ∧ e.endLoc = none) ∨
      ((e.err = .numPosOverflow ∨ e.err = .numNegOverflow) ∧
        ∃ p x r, s = p ++ x ++ r ∧ e.startLoc = o + utf8Len p ∧ e.endLoc = some (o + utf8Len (p ++ x))) ∨
      (e.err ≠ .expectedValue ∧ e.err ≠ .numPosOverflow ∧ e.err ≠ .numNegOverflow ∧ e.endLoc = some (e.startLoc + 1))) →
      ((e.err = .expectedValue ∧ e.endLoc = none) ∨
      ((e.err = .numPosOverflow ∨ e.err = .numNegOverflow) ∧
        ∃ p x r, s' = p ++ x ++ r ∧ e.startLoc = o' + utf8Len p ∧ e.endLoc = some (o' + utf8Len (p ++ x))) ∨
      (e.err ≠ .expectedValue ∧ e.err ≠ .numPosOverflow ∧ e.err ≠ .numNegOverflow ∧ e.endLoc = some (e.startLoc + 1))) := by
    rintro o o' s s' pre e rfl rfl (h | ⟨h, p, x, r, rfl, h1, h2⟩ | h)
    · exact .inl h
    · exact .inr (.inl ⟨h, pre ++ p, x, r, by simp, by rw [h1]; simp [Nat.add_assoc], by rw [h2]; simp [Nat.add_assoc]⟩)
    · exact .inr (.inr h)
  induction h with
  | noValue h => exact .inl ⟨rfl, rfl⟩
  | char h => cases h <;> exact .inr (.inr ⟨nofun, nofun, nofun, rfl⟩)
  | string h => cases h <;> exact .inr (.inr ⟨nofun, nofun, nofun, rfl⟩)
  | number h =>
    cases h with
    | sign => exact .inr (.inr ⟨nofun, nofun, nofun, rfl⟩)
    | @pos sg ds r => exact .inr (.inl ⟨.inl rfl, [], sg ++ ds, r, by simp, rfl, rfl⟩)
    | @neg ds r => exact .inr (.inl ⟨.inr rfl, [], '-' :: ds, r, by simp, rfl, rfl⟩)
  | bits h => exact .inr (.inr ⟨nofun, nofun, nofun, rfl⟩)
  | composite h ih => exact ih
  | variant hn hw h ih => exact lift (by rfl) rfl ih
  | unnamed hw hs h ih => exact lift (by rfl) rfl ih
  | named hw hs h ih => exact lift (by rfl) rfl ih
  | val h ih => exact ih
  | valNext hx hw3 hw4 hs h ih => exact lift (by rfl) rfl ih
  | valClose => exact .inr (.inr ⟨nofun, nofun, nofun, rfl⟩)
  | noName => exact .inr (.inr ⟨nofun, nofun, nofun, rfl⟩)
  | nameString h => cases h <;> exact .inr (.inr ⟨nofun, nofun, nofun, rfl⟩)
  | colon => exact .inr (.inr ⟨nofun, nofun, nofun, rfl⟩)
  | field hn hw1 hw2 hs h ih => exact lift (by rfl) rfl ih
  | fieldNext hx hw3 hw4 hs h ih => exact lift (by rfl) rfl ih
  | fieldClose => exact .inr (.inr ⟨nofun, nofun, nofun, rfl⟩)

end SV
