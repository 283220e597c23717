import Verif.Proofs.FaultViable
/-
Property C55 and more of C10: what the parser says about texts that it rejects.
-/
namespace SV

variable {u : Uni}

/-! ### C55 -/

/-- C55: the parser reports the error `e` (kind and locations) exactly when `e` is the fault of the text
according to the description in Spec/Fault.lean. -/
theorem C55_reports_exactly_the_fault (s : Str) (e : ParseError) :
    (∃ rest, fromStr u s = some (.error e, rest)) ↔ Fault u .val 0 s e :=
  fromStr_error_iff

/-- C55: every text either begins with the text of a value (followed by something that does not continue it) or has
a fault, never both, and it has at most one fault. -/
theorem C55_text_or_one_fault (s : Str) :
    ((∃ v x r, Text u NoCustom v x ∧ s = x ++ r ∧ PlainFollow x r) ∧ ¬ ∃ e, Fault u .val 0 s e) ∨
    ((∃ e, Fault u .val 0 s e ∧ ∀ e', Fault u .val 0 s e' → e' = e) ∧
      ¬ ∃ v x r, Text u NoCustom v x ∧ s = x ++ r ∧ PlainFollow x r) := by
  obtain ⟨x, t', h, _⟩ := parseValueN_inv (u := u) [] (s.length + 1) (Toks.new s) (by simp [Toks.new])
  have hs : fromStr u s = some (x, t'.rest) := by simp [fromStr, parse, h]
  cases x with
  | ok v =>
    left
    obtain ⟨x, h1, h2, h3⟩ := fromStr_iff.1 hs
    refine ⟨⟨v, x, _, h1, h2, h3⟩, ?_⟩
    rintro ⟨e, he⟩
    obtain ⟨rest, he⟩ := fromStr_error_iff.2 he
    rw [hs] at he; simp at he
  | error e =>
    right
    refine ⟨⟨e, fromStr_error_iff.1 ⟨_, hs⟩, ?_⟩, ?_⟩
    · intro e' he'
      obtain ⟨rest, he'⟩ := fromStr_error_iff.2 he'
      rw [hs] at he'; simp at he'; exact he'.1.symm
    · rintro ⟨v, x, r, h1, h2, h3⟩
      rw [fromStr_iff.2 ⟨x, h1, h2, h3⟩] at hs; simp at hs

/-- C55: what is before the reported location can be continued to something that is parsed completely, so nothing before it
is wrong. (Except for wrong escape codes in chars; see `C55_char_escape_reported_late`.) -/
theorem C55_before_error_is_viable (s rest : Str) (e : ParseError) (h : fromStr u s = some (.error e, rest))
    (he : e.err ≠ .charExpectedValidEscapeCode) :
    ∃ pre r, s = pre ++ r ∧ e.startLoc = utf8Len pre ∧ ∃ more v, fromStr u (pre ++ more) = some (.ok v, []) := by
  obtain ⟨p, r, h1, h2, more, v, h3⟩ := (fromStr_error_iff.1 ⟨rest, h⟩).viable he
  exact ⟨p, r, h1, by simpa using h2, more, v, fromStr_iff.2 ⟨_, h3, by simp, fun _ => trivial⟩⟩

/-- C55: a wrong escape code in a char is reported *after* the wrong code (from_string.rs:415 takes the location after the
character was read), so the text before the location is already one that nothing can make right; in a string (C55's
`StrFault.esc`) the location is that of the code. -/
theorem C55_char_escape_reported_late (c : Char) (r : Str) (hc : ∀ d, ¬ Escape c d) :
    ∃ rest, fromStr u ('\'' :: '\\' :: c :: r) =
      some (.error ⟨utf8Len ['\'', '\\', c], some (utf8Len ['\'', '\\', c] + 1), .charExpectedValidEscapeCode⟩, rest) := by
  have := (fromStr_error_iff (u := u)).2 (.char (.esc (o := 0) (r := r) hc))
  have q : ('\'' : Char).utf8Size = 1 := rfl
  have b : ('\\' : Char).utf8Size = 1 := rfl
  simpa [ParseErrorKind.atOne, q, b, Nat.add_assoc, ← Nat.add_assoc] using this

/-- The same escape code in a string: the location is that of the code. -/
theorem C55_string_escape_location (k b r : Str) (c : Char) (hb : StrBody k b) (hc : ∀ d, ¬ Escape c d) :
    ∃ rest, fromStr u ('"' :: b ++ '\\' :: c :: r) =
      some (.error ⟨utf8Len ('"' :: b ++ ['\\']), some (utf8Len ('"' :: b ++ ['\\']) + 1), .strExpectedValidEscapeCode⟩, rest) := by
  have := (fromStr_error_iff (u := u)).2 (.string (.esc (o := 0) (r := r) hb hc))
  simpa [ParseErrorKind.atOne] using this

/-- A missing closing bracket: the error says which bracket is open, and where. -/
example : Fault .ascii .val 0 "Foo (1, (true x))".toList
    ⟨14, some 15, .expectedCloserToMatch ')' 8⟩ :=
  (C55_reports_exactly_the_fault _ _).1 ⟨_, rfl⟩

/-- The same, derived by the rules alone. -/
example : Fault .ascii .val 0 "(true x".toList ⟨6, some 7, .expectedCloserToMatch ')' 0⟩ :=
  .composite (.unnamed (w := []) (s := "true x".toList) (by intro c h; cases h)
    (by intro c r h; simp at h; obtain ⟨rfl, _⟩ := h; decide)
    (.valClose (x := "true".toList) (w := " ".toList) (s := "x".toList) (.builtin .true_)
      (fun _ => ⟨by decide, by decide⟩)
      (by intro c h; simp at h; subst h; decide)
      (by intro c r h; simp at h; obtain ⟨rfl, _⟩ := h; decide)))

/-- No value where one is expected. -/
example : Fault .ascii .val 0 "{a: ,}".toList ⟨4, none, .expectedValue⟩ :=
  (C55_reports_exactly_the_fault _ _).1 ⟨_, rfl⟩

/-- The hypotheses of `C55_before_error_is_viable`, and of those on escapes. -/
example : (∃ rest, fromStr .ascii "{a: ,}".toList = some (.error ⟨4, none, .expectedValue⟩, rest)) ∧
    (∀ d, ¬ Escape 'q' d) ∧ StrBody "a\n".toList "a\\n".toList :=
  ⟨⟨_, rfl⟩, fun _ h => (by cases h), .plain (by decide) (by decide) (.esc .nl .nil)⟩

/-! ### C10 -/

/-- C10: which errors have an end, and where it is: an expected value has none; a number that does not fit ends where the number
ends; all others end one *byte* after they begin. -/
theorem C10_end (s rest : Str) (e : ParseError) (h : fromStr u s = some (.error e, rest)) :
    (e.err = .expectedValue ∧ e.endLoc = none) ∨
    ((e.err = .numPosOverflow ∨ e.err = .numNegOverflow) ∧
      ∃ p x r, s = p ++ x ++ r ∧ e.startLoc = utf8Len p ∧ e.endLoc = some (utf8Len (p ++ x))) ∨
    (e.err ≠ .expectedValue ∧ e.err ≠ .numPosOverflow ∧ e.err ≠ .numNegOverflow ∧ e.endLoc = some (e.startLoc + 1)) := by
  have := (fromStr_error_iff.1 ⟨rest, h⟩).ends
  simpa using this

/-- C10: so the end may be past the end of the input, and it may be inside of a character: it cannot be used to slice the input. -/
theorem C10_end_may_not_be_a_boundary :
    (∃ s e rest l, fromStr u s = some (.error e, rest) ∧ e.endLoc = some l ∧ utf8Len s < l) ∧
    (∃ s e rest l, fromStr u s = some (.error e, rest) ∧ e.endLoc = some l ∧ l < utf8Len s ∧
      ¬ ∃ pre r, s = pre ++ r ∧ l = utf8Len pre) := by
  constructor
  · obtain ⟨rest, h⟩ := (fromStr_error_iff (u := u)).2 (.char (.ends (o := 0)))
    exact ⟨_, _, rest, 2, h, rfl, by decide⟩
  · have := (fromStr_error_iff (u := u)).2 (.char (.close (o := 0) (c := 'a') (r := ['é']) (by decide)
      (by intro c r h; simp at h; obtain ⟨rfl, _⟩ := h; decide)))
    obtain ⟨rest, h⟩ := this
    refine ⟨_, _, rest, 3, h, rfl, by decide, ?_⟩
    rintro ⟨pre, r, h1, h2⟩
    have : pre = ['\'', 'a', 'é'].take pre.length := by
      have h3 := congrArg (List.take pre.length) h1
      simpa using h3.symm
    have hl : pre.length ≤ 3 := by have := congrArg List.length h1; simp at this; omega
    match h4 : pre.length, hl with
    | 0, _ => rw [h4] at this; subst this; revert h2; decide
    | 1, _ => rw [h4] at this; subst this; revert h2; decide
    | 2, _ => rw [h4] at this; subst this; revert h2; decide
    | 3, _ => rw [h4] at this; subst this; revert h2; decide

end SV
