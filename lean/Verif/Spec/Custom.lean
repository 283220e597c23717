import Verif.Model.Parse
import Verif.Spec.Grammar
import Verif.Spec.Value
/-
What it means for a list of custom parsers to implement additional notations.
-/
namespace SV

/-- Characters that can come directly after a value inside of a composite. -/
def Delim (u : Uni) (c : Char) : Prop := u.ws c = true ∨ c = ',' ∨ c = ')' ∨ c = '}'

/-- As `Implements` below, but without the requirement that the texts of the custom notations are ASCII. Here a text of `X` is
what the parser moves over when a custom parser succeeds: as many *characters* as the custom parser consumed *bytes*. -/
structure ImplementsChars (u : Uni) (cps : List CustomParser) (X : Value Unit → Str → Prop)
    (Follow : Str → Str → Prop) : Prop where
  sep : ∀ s c r, Delim u c → Follow s (c :: r)
  num : ∀ p s rest, NumLit p s → Follow s rest → NotNumCont rest
  accept : ∀ v s rest, X v s → Follow s rest →
    ∃ left, runCustom cps (s ++ rest) = (some (.ok v), left) ∧ (s ++ rest).take (utf8Len (s ++ rest) - utf8Len left) = s
  decline : ∀ v s rest, Txt u X (.blt v) s → Follow s rest → ∃ c', runCustom cps (s ++ rest) = (none, c')
  head : ∀ v s, X v s → ∃ c r, s = c :: r ∧ u.ws c = false ∧ c ≠ ')' ∧ c ≠ '}'

/-- Values, fields or a composite of a category of the grammar have the property `P`. -/
def Cat.All (P : Value Unit → Prop) : Cat → Prop
  | .val v => P v
  | .blt v => P v
  | .comp c => ∀ v ∈ c.vals, P v
  | .fields fs => ∀ p ∈ fs, P p.2
  | .vals vs => ∀ v ∈ vs, P v

/-- As `ImplementsChars`, but only for values with the property `P` (which is passed on to the values in a value). Here `Follow` is
about what comes next in a list of values: whitespace, and a comma or a closing bracket. -/
structure ImplementsOn (u : Uni) (cps : List CustomParser) (X : Value Unit → Str → Prop)
    (Follow : Str → Str → Prop) (P : Value Unit → Prop) : Prop where
  hered : ∀ v w, P v → w ∈ v.children → P w
  sep : ∀ s w c r, Ws u w → (c = ',' ∨ c = ')' ∨ c = '}') → Follow s (w ++ c :: r)
  num : ∀ p s rest, NumLit p s → Follow s rest → NotNumCont rest
  accept : ∀ v s rest, X v s → Follow s rest →
    ∃ left, runCustom cps (s ++ rest) = (some (.ok v), left) ∧ (s ++ rest).take (utf8Len (s ++ rest) - utf8Len left) = s
  decline : ∀ v s rest, P v → Txt u X (.blt v) s → Follow s rest → ∃ c', runCustom cps (s ++ rest) = (none, c')
  head : ∀ v s, X v s → ∃ c r, s = c :: r ∧ u.ws c = false ∧ c ≠ ')' ∧ c ≠ '}'

/-- What is required of custom parsers `cps` to implement the notations `X`, when each text `s` is
only ever followed by `rest` with `Follow s rest`. -/
structure Implements (u : Uni) (cps : List CustomParser) (X : Value Unit → Str → Prop)
    (Follow : Str → Str → Prop) : Prop where
  sep : ∀ s c r, Delim u c → Follow s (c :: r)
  num : ∀ p s rest, NumLit p s → Follow s rest → NotNumCont rest
  accept : ∀ v s rest, X v s → Follow s rest →
    runCustom cps (s ++ rest) = (some (.ok v), rest) ∧ ∀ c ∈ s, c.utf8Size = 1
  decline : ∀ v s rest, Txt u X (.blt v) s → Follow s rest → ∃ c', runCustom cps (s ++ rest) = (none, c')
  head : ∀ v s, X v s → ∃ c r, s = c :: r ∧ u.ws c = false ∧ c ≠ ')' ∧ c ≠ '}'

end SV
