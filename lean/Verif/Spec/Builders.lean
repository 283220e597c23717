import Verif.Model.Builders
import Verif.Spec.Format
/-
What the options of a formatter are after a history of calls, said without running them.
-/
namespace SV

variable {T W α β : Type}

/-- The last answer that is given in a list. -/
inductive Last (f : α → Option β) : List α → Option β → Prop
  | never {l} (h : ∀ a ∈ l, f a = none) : Last f l none
  | at {before a after b} (h : f a = some b) (hl : ∀ a ∈ after, f a = none) : Last f (before ++ a :: after) (some b)

/-- The style that a call chooses. -/
def BuilderCall.style? : BuilderCall T W → Option Style
  | .compact => some .compact
  | .pretty => some (.pretty 0)
  | _ => none

/-- The leading indent that a call chooses. -/
def BuilderCall.leadingIndent? : BuilderCall T W → Option Str
  | .leadingIndent s => some s
  | _ => none

/-- The indent that a call chooses. -/
def BuilderCall.indentBy? : BuilderCall T W → Option Str
  | .indentBy s => some s
  | _ => none

/-- The context printer that a call chooses. -/
def BuilderCall.context? : BuilderCall T W → Option (ContextPrinter T W)
  | .formatContext p => some p
  | _ => none

/-- The formatter that a call adds. -/
def BuilderCall.formatter? : BuilderCall T W → Option (CustomFormatter T W)
  | .addCustomFormatter f => some f
  | _ => none

/-- A call by which only the lines of pretty style change. -/
def BuilderCall.IsIndent : BuilderCall T W → Prop
  | .leadingIndent _ => True
  | .indentBy _ => True
  | _ => False

/-- The two calls choose the same option (and neither adds a formatter). -/
def BuilderCall.SameOption (c c' : BuilderCall T W) : Prop :=
  (c.style?.isSome ∧ c'.style?.isSome) ∨ (c.leadingIndent?.isSome ∧ c'.leadingIndent?.isSome) ∨ (c.indentBy?.isSome ∧ c'.indentBy?.isSome) ∨ (c.context?.isSome ∧ c'.context?.isSome)

/-- Calls with the formatter or context printer given by the writes that it does, for a writer of any type. -/
inductive FmtCall (T : Type) where
  | compact
  | pretty
  | leadingIndent (s : Str)
  | indentBy (s : Str)
  | formatContext (p : T → List Str)
  | addCustomFormatter (f : Value T → Option (List Str))

/-- The call, for a writer. -/
def FmtCall.call (wr : Writer W) : FmtCall T → BuilderCall T W
  | .compact => .compact
  | .pretty => .pretty
  | .leadingIndent s => .leadingIndent s
  | .indentBy s => .indentBy s
  | .formatContext p => .formatContext fun c w => runWrites wr (p c) w
  | .addCustomFormatter f => .addCustomFormatter fun v w => match f v with
    | none => (none, w)
    | some ws => (some (runWrites wr ws w).1, (runWrites wr ws w).2)

/-- The options in effect: of each kind the last that was chosen or else the default; the formatters in the order in which they were added. -/
structure InEffect (calls : List (FmtCall T)) (o : FmtOpts T) : Prop where
  style : ∃ s, Last (fun | .compact => some Style.compact | .pretty => some (.pretty 0) | _ => none) calls s ∧ o.style = s.getD .normal
  indentBy : ∃ s, Last (fun | .indentBy s => some s | _ => none) calls s ∧ o.indentBy = s.getD [' ', ' ']
  leadingIndent : ∃ s, Last (fun | .leadingIndent s => some s | _ => none) calls s ∧ o.leadingIndent = s.getD []
  context : Last (fun | .formatContext p => some p | _ => none) calls o.context
  formatters : o.formatters = calls.filterMap (fun | .addCustomFormatter f => some f | _ => none)

end SV
