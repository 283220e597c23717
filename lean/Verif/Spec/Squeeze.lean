import Verif.Spec.Format
/-
Texts without the whitespace outside of quotes.
-/
namespace SV

/-- Remove all whitespace that is outside of quotes. -/
def squeeze (u : Uni) : Quote → Str → Str
  | _, [] => []
  | q, c :: r => if q = .out ∧ u.ws c = true then squeeze u q r else c :: squeeze u (q.step c) r

/-- The options of compact style, without custom formatters or contexts. -/
def compactOpts {T : Type} : FmtOpts T where
  style := .compact
  indentBy := []
  leadingIndent := []
  formatters := []
  context := none

end SV
