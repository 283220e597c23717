import Verif.Model.Format
import Verif.Model.Parse
/-
Histories of calls on the two builders. The methods of `ToWriterBuilder` are modelled in Model/Format.lean.
-/
namespace SV

variable {T W : Type}

/-- One call of a method of `ToWriterBuilder` that takes and gives back the builder (to_string.rs:67-241). A formatter and a context
printer are arbitrary functions of the value and the writer. -/
inductive BuilderCall (T W : Type) where
  | compact
  | pretty
  | leadingIndent (s : Str)
  | indentBy (s : Str)
  | formatContext (p : ContextPrinter T W)
  | addCustomFormatter (f : CustomFormatter T W)

/-- What the call does to the builder (to_string.rs:67-241). -/
def BuilderCall.run (b : Builder T W) : BuilderCall T W → Builder T W
  | .compact => b.compact
  | .pretty => b.pretty
  | .leadingIndent s => b.setLeadingIndent s
  | .indentBy s => b.setIndentBy s
  | .formatContext p => b.formatContext p
  | .addCustomFormatter f => b.addCustomFormatter f

/-- `to_writer_custom().a(..).b(..)...`: the calls one after the other (string_impls/mod.rs:37-39, to_string.rs:35-43). -/
def Builder.after (wr : Writer W) (calls : List (BuilderCall T W)) : Builder T W := calls.foldl BuilderCall.run (Builder.new wr)

/-- `struct FromStrBuilder` (from_string.rs:27-29). -/
structure FromStrBuilder where
  customParsers : List CustomParser

/-- `FromStrBuilder::new` (from_string.rs:34-36). -/
def FromStrBuilder.new : FromStrBuilder := ⟨[]⟩

/-- `FromStrBuilder::add_custom_parser` (from_string.rs:50-56). -/
def FromStrBuilder.addCustomParser (b : FromStrBuilder) (p : CustomParser) : FromStrBuilder := { b with customParsers := b.customParsers ++ [p] }

/-- `FromStrBuilder::parse` (from_string.rs:60-65). -/
def FromStrBuilder.parse (u : Uni) (b : FromStrBuilder) (s : Str) : Option (Except ParseError (Value Unit) × Str) := SV.parse u b.customParsers s

/-- `from_str_custom().add_custom_parser(..)...`: the calls one after the other (string_impls/mod.rs:28-30, from_string.rs:50-56). -/
def FromStrBuilder.after (ps : List CustomParser) : FromStrBuilder := ps.foldl FromStrBuilder.addCustomParser .new

end SV
