import Verif.Model.Macro
/-
What `value!(..)` should mean: the notation of /repo/src/macros.rs:17-74, as a grammar. Only the token type and the parameter `Rust` (which
tokens are an expression, and what `Value::from` makes of it) are those of the model.
-/
namespace SV
namespace Macro

/-- `ts` is an expression of Rust, all of it. -/
def Whole (R : Rust) (ts : List TT) : Prop := R.parse ts = .upTo ts []

/-- The notations for composites and variants: `(..)`, `{..}`, `name(..)`, `name{..}`. -/
inductive Shape : List TT → Prop
  | tuple (a) : Shape [.group .paren a]
  | struct (a) : Shape [.group .brace a]
  | tupleVariant (n a) : Shape [.ident n, .group .paren a]
  | structVariant (n a) : Shape [.ident n, .group .brace a]

/-- The tokens begin with the notation of a composite or variant, whatever follows. -/
def Begins (ts : List TT) : Prop := ∃ s r, Shape s ∧ ts = s ++ r

/-- The text for an expression that names a field: an identifier itself, the value of a literal (`"a b"` without the quotes), the text of
any other expression. -/
def nameOf (R : Rust) : List TT → Str
  | [.ident s] => s
  | [.lit _ shown] => shown
  | ts => R.stringify ts

/-- The notations for a field's name, and the name. `(e)` is the text of the expression `e`. Any other expression stands for its text, and
a literal for its value; but the macro looks at it token by token, so no part of it may be a syntax error, nor contain a comma. -/
inductive Key (R : Rust) : List TT → Str → Prop
  | paren {g} : Whole R g → Key R [.group .paren g] (nameOf R g)
  | plain {ks} : Whole R ks →
      (∀ p q, ks = p ++ q → R.parse p ≠ .broken) →
      comma ∉ ks →
      ks.head? ≠ some colon →
      (∀ g r, ks = .group .paren g :: r → R.parse g ≠ .broken ∧ (Whole R g → r ≠ [] ∧ r.head? ≠ some colon)) →
      Key R ks (nameOf R ks)

mutual
/-- `value!(ts)` is the notation for `v`. -/
inductive Denotes (R : Rust) : List TT → Value Unit → Prop
  | nothing : Denotes R [] (.mk (.composite (.unnamed [])) ())
  | tuple {ts vs} : Items R ts vs → Denotes R [.group .paren ts] (.mk (.composite (.unnamed vs)) ())
  | struct {ts fs} : Fields R ts fs → Denotes R [.group .brace ts] (.mk (.composite (.named fs)) ())
  | tupleVariant {n ts vs} : Items R ts vs →
      Denotes R [.ident n, .group .paren ts] (.mk (.variant (.mk n (.unnamed vs))) ())
  | structVariant {n ts fs} : Fields R ts fs →
      Denotes R [.ident n, .group .brace ts] (.mk (.variant (.mk n (.named fs))) ())
  | expr {ts v} : Whole R ts → ¬ Shape ts → R.value ts = some v → Denotes R ts v
/-- `ts` is a list of values with commas between them, and perhaps one at the end. A value that begins like a composite or variant has
to be just that. -/
inductive Items (R : Rust) : List TT → List (Value Unit) → Prop
  | nil : Items R [] []
  | last {c v} : c ≠ [] → (Begins c → Shape c) → Denotes R c v → Items R c [v]
  | cons {c v r vs} : c ≠ [] → (Begins c → Shape c) → Denotes R c v → Items R r vs → Items R (c ++ comma :: r) (v :: vs)
/-- `ts` is a list of `name: value` with commas between them, and perhaps one at the end. -/
inductive Fields (R : Rust) : List TT → List (Str × Value Unit) → Prop
  | empty : Fields R [] []
  | lastField {ks k c v} : Key R ks k → c ≠ [] → (Begins c → Shape c) → Denotes R c v → Fields R (ks ++ colon :: c) [(k, v)]
  | field {ks k c v r fs} : Key R ks k → c ≠ [] → (Begins c → Shape c) → Denotes R c v → Fields R r fs →
      Fields R (ks ++ colon :: (c ++ comma :: r)) ((k, v) :: fs)
end

mutual
/-- The number of tokens, a group being two (its delimiters) and what is in it. -/
def TT.count : TT → Nat
  | .group _ ts => 2 + countAll ts
  | _ => 1
/-- The number of tokens. -/
def countAll : List TT → Nat
  | [] => 0
  | t :: r => t.count + countAll r
end

end Macro
end SV
