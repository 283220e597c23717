import Verif.Model.Trace
import Verif.Model.Format
/-
Model of the `Display` implementations of /repo/src/scale_impls/tracing_decoder/path.rs and error.rs.
-/
namespace SV

variable {Id W : Type}

/-- A function that writes to a `core::fmt::Formatter`: `core::fmt::Result` and the changed writer. (path.rs:46, error.rs:95) -/
abbrev WM (W : Type) := W → Bool × W

/-- Sequencing with `?`, and of the pieces of one `write!`. (path.rs:48-53, error.rs:101-105) -/
def WM.andThen (a b : WM W) : WM W := fun w => match a w with
  | (true, w') => b w'
  | (false, w') => (false, w')

@[inherit_doc] infixr:60 " >>w " => WM.andThen

/-- The `match segment` of path.rs:49-53. Digits are those of `usize`. -/
def PathSeg.display (wr : Writer W) : PathSeg → WM W
  | .index n => wr ['['] >>w wr (decDigits 39 n) >>w wr [']']
  | .field s => wr s
  | .variant s => wr s

/-- `Display for Path` (path.rs:45-57). -/
def Path.display (wr : Writer W) : Path → WM W
  | [] => fun w => (true, w)
  | s :: p => wr ['.'] >>w s.display wr >>w Path.display wr p

/-- `display_value_with_typeid` (error.rs:126-137). `dbg` is the `Debug` implementation of type ids. -/
def displayValueWithTypeid (u : Uni) (wr : Writer W) (dbg : Id → WM W) (v : Value Id) : WM W :=
  ((((Builder.new wr).pretty).formatContext dbg).addCustomFormatter (formatHex wr)).write u v

/-- `Display for TraceDecodingError` (error.rs:94-110). `de` is the `Display` implementation of `DecodeError`, which is not part of this crate. -/
def TErr.display (u : Uni) (wr : Writer W) (de : DErr → WM W) (dbg : Id → WM W) : TErr (Value Id) → WM W
  | .fromDecode e => wr "Error decoding value: ".toList >>w de e
  | .fromVisitor p v e => wr "Error decoding value at ".toList >>w Path.display wr p >>w wr ": ".toList >>w de e >>w
      wr "\nDecoded so far:\n\n".toList >>w displayValueWithTypeid u wr dbg v

/-- `error.to_string()`; `none` stands for the panic that `to_string` raises when `Display` fails. (error.rs:94-110) -/
def TErr.toString (u : Uni) (de : DErr → WM Str) (dbg : Id → WM Str) (x : TErr (Value Id)) : Option Str :=
  match x.display u stringWriter de dbg [] with
  | (true, s) => some s
  | (false, _) => none

end SV
