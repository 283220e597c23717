import Verif.Spec.Macro
import Verif.Spec.Grammar
/-
The notations that `value!` and texts of values have in common.
-/
namespace SV
namespace Macro

/-- What is required of the Rust that the macro is used in: that literals mean what they say. Integers without a suffix are `i32`. Texts of strings and chars are those that Rust and this crate
have in common: no carriage returns in a string, no quotes, line ends and tabs for themselves in a char. -/
structure Literals (R : Rust) : Prop where
  bool : ∀ b : Bool, Whole R [.ident (if b then ['t', 'r', 'u', 'e'] else ['f', 'a', 'l', 's', 'e'])] ∧
    R.value [.ident (if b then ['t', 'r', 'u', 'e'] else ['f', 'a', 'l', 's', 'e'])] = some (.mk (.primitive (.bool b)) ())
  str : ∀ s t, StrLit s t → '\r' ∉ t → Whole R [.lit t s] ∧ R.value [.lit t s] = some (.mk (.primitive (.string s)) ())
  char : ∀ c t shown, CharLit c t → (∀ x ∈ ['\'', '\n', '\r', '\t'], t ≠ ['\'', x, '\'']) → Whole R [.lit t shown] ∧ R.value [.lit t shown] = some (.mk (.primitive (.char c)) ())
  int : ∀ t k (n : I128) shown, DecVal t k → n.val = k → k < 2 ^ 31 → Whole R [.lit t shown] ∧ R.value [.lit t shown] = some (.mk (.primitive (.i128 n)) ())
  neg : ∀ t k (n : I128) shown, DecVal t k → n.val = -(k : Int) → k ≤ 2 ^ 31 →
    Whole R [.punct ['-'], .lit t shown] ∧ R.value [.punct ['-'], .lit t shown] = some (.mk (.primitive (.i128 n)) ())

/-- `FieldToken u R k text key`: the token `key`, with the text `text`, stands for the name `k` of a field: an identifier (which is not a keyword of Rust), or a string. -/
inductive FieldToken (u : Uni) (R : Rust) : Str → Str → TT → Prop
  | ident {k} : Ident u k → Whole R [.ident k] → FieldToken u R k k (.ident k)
  | quoted {k t} : StrLit k t → '\r' ∉ t → FieldToken u R k t (.lit t k)

/-- What is written: a value, a nonempty list of values, or a nonempty list of names and values. -/
inductive Part where
  | value
  | list
  | pairs

/-- `Written u R part ts s`: `s` is source code with the tokens `ts`, in notation that the macro and texts of values have in common: booleans, strings, chars, decimal numbers, `(..)`, `{..}`,
`name(..)`, `name{..}` with values, or names and values, separated by commas, and any whitespace. -/
inductive Written (u : Uni) (R : Rust) : Part → List TT → Str → Prop
  | true_ : Written u R .value [.ident ['t', 'r', 'u', 'e']] ['t', 'r', 'u', 'e']
  | false_ : Written u R .value [.ident ['f', 'a', 'l', 's', 'e']] ['f', 'a', 'l', 's', 'e']
  | str {s t} : StrLit s t → '\r' ∉ t → Written u R .value [.lit t s] t
  | char {c t shown} : CharLit c t → (∀ x ∈ ['\'', '\n', '\r', '\t'], t ≠ ['\'', x, '\'']) → Written u R .value [.lit t shown] t
  | int {t k shown} : DecVal t k → k < 2 ^ 31 → Written u R .value [.lit t shown] t
  | neg {t k shown} : DecVal t k → k ≤ 2 ^ 31 → Written u R .value [.punct ['-'], .lit t shown] ('-' :: t)
  | unit {w} : Ws u w → Written u R .value [.group .paren []] ('(' :: w ++ [')'])
  | empty {w} : Ws u w → Written u R .value [.group .brace []] ('{' :: w ++ ['}'])
  | tuple {ts w1 s w2} : Ws u w1 → Written u R .list ts s → Ws u w2 → Written u R .value [.group .paren ts] ('(' :: w1 ++ s ++ w2 ++ [')'])
  | struct {ts w1 s w2} : Ws u w1 → Written u R .pairs ts s → Ws u w2 → Written u R .value [.group .brace ts] ('{' :: w1 ++ s ++ w2 ++ ['}'])
  | unitVariant {n w w1} : VariantName u n n → Ws u w → Ws u w1 → Written u R .value [.ident n, .group .paren []] (n ++ w ++ ('(' :: w1 ++ [')']))
  | emptyVariant {n w w1} : VariantName u n n → Ws u w → Ws u w1 → Written u R .value [.ident n, .group .brace []] (n ++ w ++ ('{' :: w1 ++ ['}']))
  | tupleVariant {n w ts w1 s w2} : VariantName u n n → Ws u w → Ws u w1 → Written u R .list ts s → Ws u w2 →
      Written u R .value [.ident n, .group .paren ts] (n ++ w ++ ('(' :: w1 ++ s ++ w2 ++ [')']))
  | structVariant {n w ts w1 s w2} : VariantName u n n → Ws u w → Ws u w1 → Written u R .pairs ts s → Ws u w2 →
      Written u R .value [.ident n, .group .brace ts] (n ++ w ++ ('{' :: w1 ++ s ++ w2 ++ ['}']))
  | one {ts s} : Written u R .value ts s → Written u R .list ts s
  | more {ts s w1 w2 ts' s'} : Written u R .value ts s → Ws u w1 → Ws u w2 → Written u R .list ts' s' →
      Written u R .list (ts ++ comma :: ts') (s ++ w1 ++ ',' :: w2 ++ s')
  | onePair {k nm key w1 w2 ts s} : FieldToken u R k nm key → Ws u w1 → Ws u w2 → Written u R .value ts s →
      Written u R .pairs (key :: colon :: ts) (nm ++ w1 ++ ':' :: w2 ++ s)
  | morePairs {k nm key w1 w2 ts s w3 w4 ts' s'} : FieldToken u R k nm key → Ws u w1 → Ws u w2 → Written u R .value ts s → Ws u w3 → Ws u w4 → Written u R .pairs ts' s' →
      Written u R .pairs (key :: colon :: (ts ++ comma :: ts')) ((nm ++ w1 ++ ':' :: w2 ++ s) ++ w3 ++ ',' :: w4 ++ s')

end Macro
end SV
