import Verif.Spec.Grammar
import Verif.Model.Parse
/-
What is wrong with a text that is not the text of a value, and where: an inductive description of the faults that
does not mention the parser. Only the type of errors (`ParseError`, its `at`, `atOne` and `between`) is taken from the model.

`Fault u cat o s e`: reading the text `s`, which is at the byte offset `o` of the whole input, as `cat` is stopped by the fault `e`.
-/
namespace SV

/-- The text does not begin with a character of the class `p` (it may be empty). -/
def NoHead (p : Char → Prop) (s : Str) : Prop := ∀ c r, s = c :: r → ¬ p c

/-- The text begins with nothing that could be a value: no literal, no opening bracket, and no variant name with an opening
bracket after it. -/
structure NoValue (u : Uni) (s : Str) : Prop where
  head : NoHead (fun c => isDigit c = true ∨ c ∈ ['\'', '"', '+', '-', '{', '(', '<']) s
  notTrue : ¬ ['t', 'r', 'u', 'e'] <+: s
  notFalse : ¬ ['f', 'a', 'l', 's', 'e'] <+: s
  notVariant : ¬ ∃ n x w b r, VariantName u n x ∧ Ws u w ∧ (b = '(' ∨ b = '{') ∧ s = x ++ w ++ b :: r

/-- Faults in char literals. -/
inductive CharFault (o : Nat) : Str → ParseError → Prop
  /-- nothing after the opening quote -/
  | ends : CharFault o ['\''] (ParseErrorKind.charExpectedValidCharacter.atOne (o + 1))
  /-- nothing after the backslash -/
  | escEnds : CharFault o ['\'', '\\'] (ParseErrorKind.charExpectedValidEscapeCode.atOne (o + 2))
  /-- not an escape code after the backslash. The location is that *after* the wrong code. -/
  | esc {c r} (h : ∀ d, ¬ Escape c d) : CharFault o ('\'' :: '\\' :: c :: r)
      (ParseErrorKind.charExpectedValidEscapeCode.atOne (o + 2 + c.utf8Size))
  /-- no closing quote after the character -/
  | close {c r} (hc : c ≠ '\\') (h : NoHead (· = '\'') r) : CharFault o ('\'' :: c :: r)
      ((ParseErrorKind.charExpectedClosingQuoteToMatch o).atOne (o + 1 + c.utf8Size))
  /-- no closing quote after the escape code -/
  | escClose {c d r} (hc : Escape c d) (h : NoHead (· = '\'') r) : CharFault o ('\'' :: '\\' :: c :: r)
      ((ParseErrorKind.charExpectedClosingQuoteToMatch o).atOne (o + 2 + c.utf8Size))

/-- Faults in string literals. -/
inductive StrFault (o : Nat) : Str → ParseError → Prop
  /-- the input ends inside of the string -/
  | close {s b} (h : StrBody s b) : StrFault o ('"' :: b)
      ((ParseErrorKind.strExpectedClosingQuoteToMatch o).atOne (o + utf8Len ('"' :: b)))
  /-- the input ends after a backslash -/
  | escEnds {s b} (h : StrBody s b) : StrFault o ('"' :: b ++ ['\\'])
      ((ParseErrorKind.strExpectedClosingQuoteToMatch o).atOne (o + utf8Len ('"' :: b ++ ['\\'])))
  /-- not an escape code after a backslash -/
  | esc {s b c r} (h : StrBody s b) (hc : ∀ d, ¬ Escape c d) : StrFault o ('"' :: b ++ '\\' :: c :: r)
      (ParseErrorKind.strExpectedValidEscapeCode.atOne (o + utf8Len ('"' :: b ++ ['\\'])))

/-- Faults in number literals. -/
inductive NumFault (o : Nat) : Str → ParseError → Prop
  /-- a sign without a digit after it -/
  | sign {c r} (hc : c = '+' ∨ c = '-') (h : NoHead (fun c => isDigit c = true) r) : NumFault o (c :: r)
      (ParseErrorKind.numExpectedDigit.atOne (o + 1))
  /-- a number that is too large -/
  | pos {sg ds r n} (hs : sg = [] ∨ sg = ['+']) (h : DecVal ds n) (hr : NotNumCont r) (hn : 2 ^ 128 ≤ n) :
      NumFault o (sg ++ ds ++ r) (ParseErrorKind.numPosOverflow.between o (o + utf8Len (sg ++ ds)))
  /-- a number that is too small -/
  | neg {ds r n} (h : DecVal ds n) (hr : NotNumCont r) (hn : 2 ^ 127 < n) :
      NumFault o ('-' :: ds ++ r) (ParseErrorKind.numNegOverflow.between o (o + utf8Len ('-' :: ds)))

/-- What is being read. -/
inductive FaultCat where
  /-- a value -/
  | val
  /-- a composite in its brackets -/
  | comp
  /-- a nonempty comma separated list of values, and its closing bracket, the opening one being at this offset -/
  | vals (start : Nat)
  /-- a nonempty comma separated list of fields, and its closing bracket, the opening one being at this offset -/
  | fields (start : Nat)

/-- The faults. -/
inductive Fault (u : Uni) : FaultCat → Nat → Str → ParseError → Prop
  /-- no value where one is expected: the location is where it is expected, without an end -/
  | noValue {o s} (h : NoValue u s) : Fault u .val o s (ParseErrorKind.expectedValue.at o)
  | char {o s e} (h : CharFault o s e) : Fault u .val o s e
  | string {o s e} (h : StrFault o s e) : Fault u .val o s e
  | number {o s e} (h : NumFault o s e) : Fault u .val o s e
  /-- a bit sequence in which something other than `0`, `1` and `>` follows -/
  | bits {o bs r} (h : NoHead (fun c => c = '0' ∨ c = '1' ∨ c = '>') r) :
      Fault u .val o ('<' :: bitChars bs ++ r)
        ((ParseErrorKind.bitsExpectedClosingBracketToMatch o).atOne (o + utf8Len ('<' :: bitChars bs)))
  | composite {o s e} (h : Fault u .comp o s e) : Fault u .val o s e
  | variant {o n x w s e} (hn : VariantName u n x) (hw : Ws u w) (h : Fault u .comp (o + utf8Len (x ++ w)) s e) :
      Fault u .val o (x ++ w ++ s) e
  | unnamed {o w s e} (hw : Ws u w) (hs : NoHead (fun c => u.ws c = true ∨ c = ')') s)
      (h : Fault u (.vals o) (o + utf8Len ('(' :: w)) s e) : Fault u .comp o ('(' :: w ++ s) e
  | named {o w s e} (hw : Ws u w) (hs : NoHead (fun c => u.ws c = true ∨ c = '}') s)
      (h : Fault u (.fields o) (o + utf8Len ('{' :: w)) s e) : Fault u .comp o ('{' :: w ++ s) e
  /-- the fault is in the first value -/
  | val {p o s e} (h : Fault u .val o s e) : Fault u (.vals p) o s e
  /-- the first value is right, and so is the comma; the fault is after that -/
  | valNext {p o v x w3 w4 s e} (hx : Text u NoCustom v x) (hw3 : Ws u w3) (hw4 : Ws u w4)
      (hs : NoHead (fun c => u.ws c = true) s)
      (h : Fault u (.vals p) (o + utf8Len (x ++ w3 ++ ',' :: w4)) s e) : Fault u (.vals p) o (x ++ w3 ++ ',' :: w4 ++ s) e
  /-- neither a comma nor a closing bracket after a value -/
  | valClose {p o v x w s} (hx : Text u NoCustom v x) (hf : PlainFollow x (w ++ s)) (hw : Ws u w)
      (hs : NoHead (fun c => u.ws c = true ∨ c = ',' ∨ c = ')') s) :
      Fault u (.vals p) o (x ++ w ++ s) ((ParseErrorKind.expectedCloserToMatch ')' p).atOne (o + utf8Len (x ++ w)))
  /-- no field name where one is expected -/
  | noName {p o s} (h : NoHead (fun c => u.alpha c = true ∨ c = '"') s) :
      Fault u (.fields p) o s (ParseErrorKind.invalidStartingCharacterInIdent.atOne o)
  /-- a fault in a quoted field name -/
  | nameString {p o s e} (h : StrFault o s e) : Fault u (.fields p) o s e
  /-- no colon after a field name (which goes as far as it can) -/
  | colon {p o k n w s} (hn : FieldName u k n) (hw : Ws u w)
      (hi : Ident u n → NoHead (fun c => u.alnum c = true ∨ c = '_') (w ++ s))
      (hs : NoHead (fun c => u.ws c = true ∨ c = ':') s) :
      Fault u (.fields p) o (n ++ w ++ s) ((ParseErrorKind.missingFieldSeparator ':').atOne (o + utf8Len (n ++ w)))
  /-- the fault is in the value of the first field -/
  | field {p o k n w1 w2 s e} (hn : FieldName u k n) (hw1 : Ws u w1) (hw2 : Ws u w2)
      (hs : NoHead (fun c => u.ws c = true) s)
      (h : Fault u .val (o + utf8Len (n ++ w1 ++ ':' :: w2)) s e) : Fault u (.fields p) o (n ++ w1 ++ ':' :: w2 ++ s) e
  /-- the first field is right, and so is the comma; the fault is after that -/
  | fieldNext {p o k v x w3 w4 s e} (hx : Txt u NoCustom (.fields [(k, v)]) x) (hw3 : Ws u w3) (hw4 : Ws u w4)
      (hs : NoHead (fun c => u.ws c = true) s)
      (h : Fault u (.fields p) (o + utf8Len (x ++ w3 ++ ',' :: w4)) s e) :
      Fault u (.fields p) o (x ++ w3 ++ ',' :: w4 ++ s) e
  /-- neither a comma nor a closing bracket after a field -/
  | fieldClose {p o k v x w s} (hx : Txt u NoCustom (.fields [(k, v)]) x) (hf : PlainFollow x (w ++ s)) (hw : Ws u w)
      (hs : NoHead (fun c => u.ws c = true ∨ c = ',' ∨ c = '}') s) :
      Fault u (.fields p) o (x ++ w ++ s) ((ParseErrorKind.expectedCloserToMatch '}' p).atOne (o + utf8Len (x ++ w)))

end SV
