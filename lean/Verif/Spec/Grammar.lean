import Verif.Model.Value
import Verif.Model.Unicode
/-
The textual language of values, as a grammar relation that does not mention the parser or formatter.
`Text u X v s`: the characters `s` are a text of the value `v`. `X` is a relation of additional custom
notations (`NoCustom` for the plain language).
-/
namespace SV

/-- The escape codes: `\` followed by the first character stands for the second. -/
inductive Escape : Char → Char → Prop
  | nl : Escape 'n' '\n'
  | tab : Escape 't' '\t'
  | dq : Escape '"' '"'
  | sq : Escape '\'' '\''
  | cr : Escape 'r' '\r'
  | bs : Escape '\\' '\\'
  | nul : Escape '0' (Char.ofNat 0)

/-- `StrBody s t`: the text `t` between double quotes stands for the string `s`. -/
inductive StrBody : Str → Str → Prop
  | nil : StrBody [] []
  | plain {c s t} (h1 : c ≠ '\\') (h2 : c ≠ '"') (h : StrBody s t) : StrBody (c :: s) (c :: t)
  | esc {e d s t} (he : Escape e d) (h : StrBody s t) : StrBody (d :: s) ('\\' :: e :: t)

/-- A string literal. -/
inductive StrLit : Str → Str → Prop
  | mk {s t} (h : StrBody s t) : StrLit s ('"' :: t ++ ['"'])

/-- A char literal. -/
inductive CharLit : Char → Str → Prop
  | plain {c} (h : c ≠ '\\') : CharLit c ['\'', c, '\'']
  | esc {e d} (he : Escape e d) : CharLit d ['\'', '\\', e, '\'']

/-- Decimal value of a text of digits and underscores that starts with a digit. -/
inductive DecVal : Str → Nat → Prop
  | single {c} (hc : isDigit c = true) : DecVal [c] (c.toNat - 48)
  | digit {t n c} (h : DecVal t n) (hc : isDigit c = true) : DecVal (t ++ [c]) (10 * n + (c.toNat - 48))
  | underscore {t n} (h : DecVal t n) : DecVal (t ++ ['_']) n

/-- Number literals: no sign or `+` give unsigned, `-` gives signed numbers. -/
inductive NumLit : Primitive → Str → Prop
  | plain {t} {n : U128} (h : DecVal t n.val) : NumLit (.u128 n) t
  | plus {t} {n : U128} (h : DecVal t n.val) : NumLit (.u128 n) ('+' :: t)
  | minus {t k} {n : I128} (h : DecVal t k) (hn : n.val = -(k : Int)) : NumLit (.i128 n) ('-' :: t)

/-- Identifiers: an alphabetic character, then alphanumeric characters and underscores. -/
inductive Ident (u : Uni) : Str → Prop
  | mk {c cs} (hc : u.alpha c = true) (hcs : ∀ d ∈ cs, u.alnum d = true ∨ d = '_') : Ident u (c :: cs)

/-- Field names: an identifier or a string literal. -/
inductive FieldName (u : Uni) : Str → Str → Prop
  | ident {s} (h : Ident u s) : FieldName u s s
  | quoted {s t} (h : StrLit s t) : FieldName u s t

/-- Variant names: an identifier that does not begin with `true` or `false`, or `v` and a string
literal. -/
inductive VariantName (u : Uni) : Str → Str → Prop
  | ident {s} (h : Ident u s) (h1 : ¬ ['t', 'r', 'u', 'e'] <+: s)
      (h2 : ¬ ['f', 'a', 'l', 's', 'e'] <+: s) : VariantName u s s
  | quoted {s t} (h : StrLit s t) : VariantName u s ('v' :: t)

/-- Whitespace. -/
def Ws (u : Uni) (w : Str) : Prop := ∀ c ∈ w, u.ws c = true

/-- The text of a list of bits. -/
def bitChars (bs : List Bool) : Str := bs.map (fun b => if b then '1' else '0')

/-- Syntactic categories. -/
inductive Cat where
  /-- a value, in any notation -/
  | val (v : Value Unit)
  /-- a value in built-in notation -/
  | blt (v : Value Unit)
  /-- a composite in its brackets -/
  | comp (c : Composite Unit)
  /-- a nonempty comma separated list of fields -/
  | fields (fs : List (Str × Value Unit))
  /-- a nonempty comma separated list of values -/
  | vals (vs : List (Value Unit))

/-- The grammar. -/
inductive Txt (u : Uni) (X : Value Unit → Str → Prop) : Cat → Str → Prop
  | builtin {v s} (h : Txt u X (.blt v) s) : Txt u X (.val v) s
  | custom {v s} (h : X v s) : Txt u X (.val v) s
  | true_ : Txt u X (.blt (.bool true)) ['t', 'r', 'u', 'e']
  | false_ : Txt u X (.blt (.bool false)) ['f', 'a', 'l', 's', 'e']
  | char {c s} (h : CharLit c s) : Txt u X (.blt (.char c)) s
  | string {s t} (h : StrLit s t) : Txt u X (.blt (.string s)) t
  | number {p s} (h : NumLit p s) : Txt u X (.blt (.primitive p)) s
  | bits {bs} : Txt u X (.blt (.bitSequence bs)) ('<' :: bitChars bs ++ ['>'])
  | composite {c s} (h : Txt u X (.comp c) s) : Txt u X (.blt (.mk (.composite c) ())) s
  | variant {n c s t w} (hn : VariantName u n s) (hw : Ws u w) (h : Txt u X (.comp c) t) :
      Txt u X (.blt (.variant n c)) (s ++ w ++ t)
  | namedEmpty {w} (hw : Ws u w) : Txt u X (.comp (.named [])) ('{' :: w ++ ['}'])
  | unnamedEmpty {w} (hw : Ws u w) : Txt u X (.comp (.unnamed [])) ('(' :: w ++ [')'])
  | named {fs w1 w2 s} (hw1 : Ws u w1) (hw2 : Ws u w2) (h : Txt u X (.fields fs) s) :
      Txt u X (.comp (.named fs)) ('{' :: w1 ++ s ++ w2 ++ ['}'])
  | unnamed {vs w1 w2 s} (hw1 : Ws u w1) (hw2 : Ws u w2) (h : Txt u X (.vals vs) s) :
      Txt u X (.comp (.unnamed vs)) ('(' :: w1 ++ s ++ w2 ++ [')'])
  | field1 {k v n s w1 w2} (hk : FieldName u k n) (hw1 : Ws u w1) (hw2 : Ws u w2)
      (h : Txt u X (.val v) s) : Txt u X (.fields [(k, v)]) (n ++ w1 ++ ':' :: w2 ++ s)
  | fieldCons {k v n s w1 w2 w3 w4 fs t} (hk : FieldName u k n) (hw1 : Ws u w1) (hw2 : Ws u w2)
      (h : Txt u X (.val v) s) (hw3 : Ws u w3) (hw4 : Ws u w4) (hs : Txt u X (.fields fs) t) :
      Txt u X (.fields ((k, v) :: fs)) ((n ++ w1 ++ ':' :: w2 ++ s) ++ w3 ++ ',' :: w4 ++ t)
  | val1 {v s} (h : Txt u X (.val v) s) : Txt u X (.vals [v]) s
  | valCons {v s w3 w4 vs t} (h : Txt u X (.val v) s) (hw3 : Ws u w3) (hw4 : Ws u w4)
      (hs : Txt u X (.vals vs) t) : Txt u X (.vals (v :: vs)) (s ++ w3 ++ ',' :: w4 ++ t)

/-- `s` is a text of the value `v`, in the language extended with the notations `X`. -/
abbrev Text (u : Uni) (X : Value Unit → Str → Prop) (v : Value Unit) (s : Str) : Prop :=
  Txt u X (.val v) s

/-- No custom notations. -/
def NoCustom : Value Unit → Str → Prop := fun _ _ => False

/-- The text `rest` does not begin with a digit or an underscore, which would continue a number. -/
def NotNumCont : Str → Prop
  | [] => True
  | c :: _ => isDigit c = false ∧ c ≠ '_'

/-- A text ends with a digit or an underscore (and so may be continued by one). -/
def EndsNum (s : Str) : Prop := ∃ t c, s = t ++ [c] ∧ (isDigit c = true ∨ c = '_')

/-- In the plain language: `rest` can directly follow the text `s` without changing its reading. -/
def PlainFollow (s rest : Str) : Prop := EndsNum s → NotNumCont rest

end SV
