import Verif.Model.Basic
/-
Texts whose quotes and brackets are balanced.
-/
namespace SV

/-- What can be between two quotes `q`: any characters, of which those after a backslash are not looked at; no quote and no backslash otherwise. -/
inductive QuoteBody (q : Char) : Str → Prop
  | nil : QuoteBody q []
  | plain {c t} (h1 : c ≠ q) (h2 : c ≠ '\\') (h : QuoteBody q t) : QuoteBody q (c :: t)
  | esc {c t} (h : QuoteBody q t) : QuoteBody q ('\\' :: c :: t)

/-- The three kinds of brackets. -/
inductive Brackets : Char → Char → Prop
  | round : Brackets '(' ')'
  | curly : Brackets '{' '}'
  | angle : Brackets '<' '>'

/-- Quotes are closed, and outside of quotes each bracket is closed by one of its kind, in the right order. -/
inductive Balanced : Str → Prop
  | nil : Balanced []
  | plain {c s} (h : c ∉ ['(', ')', '{', '}', '<', '>', '"', '\'']) (hs : Balanced s) : Balanced (c :: s)
  | quoted {q t s} (hq : q = '"' ∨ q = '\'') (ht : QuoteBody q t) (hs : Balanced s) : Balanced (q :: t ++ q :: s)
  | bracketed {a b s t} (h : Brackets a b) (hs : Balanced s) (ht : Balanced t) : Balanced (a :: s ++ b :: t)

/-- Line feed, tab, carriage return and the null character. -/
def IsLayout (c : Char) : Prop := c = '\n' ∨ c = '\t' ∨ c = '\r' ∨ c = Char.ofNat 0

end SV
