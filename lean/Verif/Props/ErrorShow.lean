import Verif.Proofs.ErrorShow
import Verif.Props.Hex
/-
Property C61: the message of an error of the parser.
-/
namespace SV

/-- Kinds of errors that are not distinguished in messages: those about quotes and escape codes in chars and strings, and a missing closing bracket, whatever
it was to match. -/
inductive SameKind : ParseErrorKind → ParseErrorKind → Prop
  | same {k} : SameKind k k
  | quote {n} : SameKind (.charExpectedClosingQuoteToMatch n) (.strExpectedClosingQuoteToMatch n)
  | quote' {n} : SameKind (.strExpectedClosingQuoteToMatch n) (.charExpectedClosingQuoteToMatch n)
  | escape : SameKind .charExpectedValidEscapeCode .strExpectedValidEscapeCode
  | escape' : SameKind .strExpectedValidEscapeCode .charExpectedValidEscapeCode
  | closer {c n m} : SameKind (.expectedCloserToMatch c n) (.expectedCloserToMatch c m)

theorem kind_display_iff (k l : ParseErrorKind) : k.display = l.display ↔ SameKind k l := by
  constructor
  · intro h
    have h := parts_inj h
    cases k <;> cases l <;> first
      | exact .same
      | exact .escape
      | exact .escape'
      | (exact absurd (congrArg Prod.fst h) (by decide))
      | (refine absurd (congrArg Prod.fst h) ?_; intro e; cases e; done)
      | (have e := showNat_inj (congrArg Prod.snd h); subst e; first | exact .same | exact .quote | exact .quote')
      | (simp [ParseErrorKind.parts] at h; subst h; first | exact .same | exact .closer)
  · intro h
    cases h <;> rfl

/-- C61: the message begins with the location of the error, in decimal digits. -/
theorem C61_location_shown (e : ParseError) : ∃ a m, Nat.ofDigitChars 10 a 0 = e.startLoc ∧ (∀ c ∈ a, c.isDigit = true) ∧
    match e.endLoc with
    | none => e.display = "Error at char ".toList ++ a ++ ": ".toList ++ m
    | some n => ∃ b, Nat.ofDigitChars 10 b 0 = n ∧ (∀ c ∈ b, c.isDigit = true) ∧ e.display = "Error from char ".toList ++ a ++ " to ".toList ++ b ++ ": ".toList ++ m := by
  have dig : ∀ n, ∀ c ∈ showNat n, c.isDigit = true := fun n c hc => Nat.isDigit_of_mem_toDigits (by decide) (by decide) hc
  refine ⟨showNat e.startLoc, e.err.display, Nat.ofDigitChars_ten_toDigits, dig _, ?_⟩
  unfold ParseError.display
  cases e.endLoc with
  | none => rfl
  | some n => exact ⟨showNat n, Nat.ofDigitChars_ten_toDigits, dig _, rfl⟩

/-- C61: errors have the same message only if they have the same location and, but for the exceptions of `SameKind`, the same kind. -/
theorem C61_message_iff (e f : ParseError) : e.display = f.display ↔ e.startLoc = f.startLoc ∧ e.endLoc = f.endLoc ∧ SameKind e.err f.err := by
  obtain ⟨s, n, k⟩ := e
  obtain ⟨t, m, l⟩ := f
  constructor
  · intro h
    cases n with
    | none =>
      cases m with
      | none =>
        have h := List.append_cancel_left (as := "Error at char ".toList) (by simpa [ParseError.display] using h)
        obtain ⟨rfl, h⟩ := showNat_append_inj (c := ':') (d := ':') (by decide) (by decide) (by simpa using h)
        exact ⟨rfl, rfl, (kind_display_iff k l).1 (by simpa using h)⟩
      | some m => simp [ParseError.display] at h
    | some n =>
      cases m with
      | none => simp [ParseError.display] at h
      | some m =>
        have h := List.append_cancel_left (as := "Error from char ".toList) (by simpa [ParseError.display] using h)
        obtain ⟨rfl, h⟩ := showNat_append_inj (c := ' ') (d := ' ') (by decide) (by decide) (by simpa using h)
        obtain ⟨rfl, h⟩ := showNat_append_inj (c := ':') (d := ':') (by decide) (by decide) (List.append_cancel_left (as := "to ".toList) (by simpa using h))
        exact ⟨rfl, rfl, (kind_display_iff k l).1 (by simpa using h)⟩
  · rintro ⟨h1, h2, h3⟩
    simp only at h1 h2 h3
    subst h1 h2
    simp only [ParseError.display, (kind_display_iff k l).2 h3]

/-- C61: the messages of the hexadecimal parser for texts as in `C21_odd` and `C21_invalid`: they tell the characters concerned. -/
theorem C61_hex_odd (bs : List UInt8) (t rest : Str) (c : Char) (n : Nat) (h : HexText bs t) (hc : HexDigit c n) (hr : NotAlnumCont rest) :
    ∃ e, parseHex ('0' :: 'x' :: t ++ c :: rest) = (some (.error e), '0' :: 'x' :: t ++ c :: rest) ∧
      e.display = "Error from char ".toList ++ showNat 0 ++ " to ".toList ++ showNat ('0' :: 'x' :: t ++ [c]).length ++ ": ".toList ++ ("Custom error: ".toList ++ "Hex string is the wrong length; should be an even length".toList) := by
  obtain ⟨⟨s, l, k⟩, h1, h2, h3, h⟩ := C21_odd bs t rest c n h hc hr
  refine ⟨_, h, ?_⟩
  simp only at h1 h2 h3
  subst h1 h2 h3
  rfl

/-- C61: the same for a letter that is no hexadecimal digit. -/
theorem C61_hex_invalid (bs : List UInt8) (t d rest : Str) (c : Char) (h : HexText bs t) (hd : d = [] ∨ ∃ e n, HexDigit e n ∧ d = [e])
    (hc : isAsciiAlnum c = true) (hn : ∀ n, ¬ HexDigit c n) :
    ∃ e, parseHex ('0' :: 'x' :: t ++ d ++ c :: rest) = (some (.error e), '0' :: 'x' :: t ++ d ++ c :: rest) ∧
      e.display = "Error at char ".toList ++ showNat ('0' :: 'x' :: t ++ d).length ++ ": ".toList ++ ("Custom error: ".toList ++ ("Invalid hex character: ".toList ++ [c])) := by
  obtain ⟨⟨s, l, k⟩, h1, h2, h3, h⟩ := C21_invalid bs t d rest c h hd hc hn
  refine ⟨_, h, ?_⟩
  simp only at h1 h2 h3
  subst h1 h2 h3
  rfl

/-- The message of the error of a text. -/
def messageOf (s : String) : Option String :=
  match fromStr .ascii s.toList with
  | some (.error e, _) => some (String.ofList e.display)
  | _ => none

/-- C61 on texts: an unclosed list, a string without its closing quote, a wrong escape code in a string, a wrong digit in a bit sequence. -/
example : messageOf "(1, 2" = some "Error from char 5 to 6: Missing closing ')'" := by decide +kernel
example : messageOf "A(  \"xy" = some "Error from char 7 to 8: Expected a closing quote to match the opening quote at position 4" := by decide +kernel
example : messageOf "\"\\q\"" = some "Error from char 2 to 3: Expected an escape code to follow the '\\'" := by decide +kernel
example : messageOf "<012>" = some "Error from char 3 to 4: Expected a closing bracket ('>') to match the opening one at position 0" := by decide +kernel

end SV
