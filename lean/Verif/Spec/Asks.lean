import Verif.Model.Format
import Verif.Spec.Value
/-
Vocabulary for what happens, and in which order, while a value is written: what is given to the writer, and when the printer of contexts and the custom formatters are asked.
-/
namespace SV

variable {T W : Type}

/-- What happens while a value is written: a text is given to the writer, the printer of contexts is asked about a context, or the formatter number `i` is asked about a value.
With what they answer; `none` of a formatter is that it does not take the value. -/
inductive Asked (T : Type) where
  | wr (s : Str) (ok : Bool)
  | ctx (c : T) (ok : Bool)
  | fmt (i : Nat) (v : Value T) (r : Option Bool)

/-- The answer is an error. -/
def Asked.failed : Asked T → Bool
  | .wr _ ok => !ok
  | .ctx _ ok => !ok
  | .fmt _ _ r => r == some false

/-- Somebody other than the writer is asked. -/
def Asked.user : Asked T → Bool
  | .wr _ _ => false
  | _ => true

/-- The same builder with a record of what happens next to the writer. (A text that a formatter or the printer of contexts writes is part of its answer.) -/
def Builder.recording (b : Builder T W) : Builder T (W × List (Asked T)) where
  wr s w := ((b.wr s w.1).1, ((b.wr s w.1).2, w.2 ++ [.wr s (b.wr s w.1).1]))
  style := b.style
  customFormatters := b.customFormatters.mapIdx (fun i f v w => ((f v w.1).1, ((f v w.1).2, w.2 ++ [.fmt i v (f v w.1).1])))
  indentBy := b.indentBy
  leadingIndent := b.leadingIndent
  printContext := b.printContext.map (fun p c w => ((p c w.1).1, ((p c w.1).2, w.2 ++ [.ctx c (p c w.1).1])))

mutual
/-- `Asks n pc v l`: `l` is who is asked for `v`, with `n` formatters, and with `pc` a printer of contexts: first about its context; then each formatter until one takes it; if
none does, the values in it, in order. -/
inductive Asks (n : Nat) (pc : Bool) : Value T → List (Asked T) → Prop
  | took {v ok i r} : i < n → Asks n pc v ((if pc then [.ctx v.context ok] else []) ++ ((List.range i).map (fun j => .fmt j v none) ++ [.fmt i v (some r)]))
  | left {v ok l} : AsksAll n pc v.children l → Asks n pc v ((if pc then [.ctx v.context ok] else []) ++ ((List.range n).map (fun j => .fmt j v none) ++ l))
/-- Values one after the other. -/
inductive AsksAll (n : Nat) (pc : Bool) : List (Value T) → List (Asked T) → Prop
  | nil : AsksAll n pc [] []
  | cons {v vs l m} : Asks n pc v l → AsksAll n pc vs m → AsksAll n pc (v :: vs) (l ++ m)
end

mutual
/-- A value and all values in it: first itself, then what is in it, in order. -/
def Value.preorder : Value T → List (Value T)
  | .mk (.primitive p) c => [.mk (.primitive p) c]
  | .mk (.bitSequence s) c => [.mk (.bitSequence s) c]
  | .mk (.composite (.named fs)) c => .mk (.composite (.named fs)) c :: fieldsPreorder fs
  | .mk (.composite (.unnamed vs)) c => .mk (.composite (.unnamed vs)) c :: valuesPreorder vs
  | .mk (.variant (.mk n (.named fs))) c => .mk (.variant (.mk n (.named fs))) c :: fieldsPreorder fs
  | .mk (.variant (.mk n (.unnamed vs))) c => .mk (.variant (.mk n (.unnamed vs))) c :: valuesPreorder vs
/-- The same for some fields. -/
def fieldsPreorder : List (Str × Value T) → List (Value T)
  | [] => []
  | (_, v) :: fs => v.preorder ++ fieldsPreorder fs
/-- The same for some values. -/
def valuesPreorder : List (Value T) → List (Value T)
  | [] => []
  | v :: vs => v.preorder ++ valuesPreorder vs
end

/-- What happens for each value if no formatter takes anything and no context is refused: its context is asked about, and then all formatters. -/
def askedOf (n : Nat) (pc : Bool) (v : Value T) : List (Asked T) := (if pc then [.ctx v.context true] else []) ++ (List.range n).map (fun j => .fmt j v none)

end SV
