import Verif.Spec.Grammar
import Verif.Model.Parse
/-
Reading a text with many values, one after another.
-/
namespace SV

variable (u : Uni)

/-- A text of values one after another, with whitespace between them where they would run into each other (two numbers), and optional elsewhere. -/
inductive Stream : List (Value Unit) → Str → Prop
  | done {w} (hw : Ws u w) : Stream [] w
  | more {w v x vs rest} (hw : Ws u w) (hx : Text u NoCustom v x) (hf : PlainFollow x rest) (h : Stream vs rest) :
      Stream (v :: vs) (w ++ x ++ rest)

/-- The obvious program for that: trim the start; unless nothing is left take a value with `from_str` and go on with what it leaves. `n` limits
the number of rounds. -/
def readAll : Nat → Str → Option (List (Value Unit))
  | 0, _ => none
  | n + 1, s => match s.dropWhile u.ws with
    | [] => some []
    | c :: r => match fromStr u (c :: r) with
      | some (.ok v, rest) => (readAll n rest).map (v :: ·)
      | _ => none

end SV
