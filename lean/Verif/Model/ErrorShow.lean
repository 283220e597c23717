import Verif.Model.Hex
/-
Model of `Display` for the errors of the parser (/repo/src/string_impls/from_string.rs:93-101 and the `#[error(..)]` texts of 126-218).
Numbers are displayed by Rust's `Display` for `usize`: their decimal digits, without leading zeros.
-/
namespace SV

/-- `Display for usize` (Rust core). (from_string.rs:93-101) -/
def showNat (n : Nat) : Str := Nat.toDigits 10 n

/-- `Display for ParseErrorKind` (from_string.rs:126-143, by `thiserror`), with the texts of the kinds that it is transparent for (164-218). The texts of
`ParseIntError` are those of Rust core. -/
def ParseErrorKind.display : ParseErrorKind → Str
  | .expectedValue => "Expected a value".toList                                                            -- 128
  | .invalidStartingCharacterInIdent => "The first character in a field name should be alphabetic".toList   -- 166
  | .invalidFieldName =>                                                                                    -- 168-170
    "Field name is not valid (it should begin with an alphabetical char and then consist only of alphanumeric chars)".toList
  | .missingFieldSeparator c => "Missing field separator; expected ".toList ++ [c]                          -- 172
  | .expectedCloserToMatch c _ => "Missing closing '".toList ++ [c, '\'']                                   -- 174
  | .charExpectedValidCharacter => "Expected a single character".toList                                     -- 182
  | .charExpectedValidEscapeCode => "Expected an escape code to follow the '\\'".toList                     -- 184
  | .charExpectedClosingQuoteToMatch n => "Expected a closing quote to match the opening quote at position ".toList ++ showNat n  -- 186
  | .strExpectedClosingQuoteToMatch n => "Expected a closing quote to match the opening quote at position ".toList ++ showNat n  -- 194
  | .strExpectedValidEscapeCode => "Expected an escape code to follow the '\\'".toList  -- 196
  | .numExpectedDigit => "Expected one or more digits".toList  -- 204
  | .numPosOverflow => "Failed to parse digits into an integer: number too large to fit in target type".toList  -- 206
  | .numNegOverflow => "Failed to parse digits into an integer: number too small to fit in target type".toList  -- 206
  | .bitsExpectedClosingBracketToMatch n => "Expected a closing bracket ('>') to match the opening one at position ".toList ++ showNat n  -- 214
  | .bitsInvalidCharacter => "Invalid character; expecting a 0 or 1".toList  -- 216
  | .custom s => "Custom error: ".toList ++ s                                                               -- 141

/-- `Display for ParseError` (from_string.rs:93-101). -/
def ParseError.display (e : ParseError) : Str :=
  match e.endLoc with
  | some n => "Error from char ".toList ++ showNat e.startLoc ++ " to ".toList ++ showNat n ++ ": ".toList ++ e.err.display
  | none => "Error at char ".toList ++ showNat e.startLoc ++ ": ".toList ++ e.err.display

end SV
