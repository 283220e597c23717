import Verif.Model.Value
import Verif.Model.Unicode
/-
Model of /repo/src/string_impls/to_string.rs, the escape code table of string_helpers.rs and
custom_formatters/hex.rs.
-/
namespace SV

variable {T W : Type}

/-- `enum FormatStyle` (to_string.rs:354-362). -/
inductive Style where
  | pretty (n : Nat)
  | normal
  | compact
  deriving DecidableEq

/-- An implementation of `core::fmt::Write` for `W`: the `bool` tells whether the write succeeded.
`write_char(c)` is modelled as `write_str` of a one character string. (to_string.rs:244, 261) -/
abbrev Writer (W : Type) := Str → W → Bool × W

/-- `type CustomFormatter` (to_string.rs:31): whether it accepts the value, and with which result, and what it has
done to the writer. -/
abbrev CustomFormatter (T W : Type) := Value T → W → Option Bool × W

/-- `type ContextPrinter` (to_string.rs:32). -/
abbrev ContextPrinter (T W : Type) := T → W → Bool × W

/-- `struct ToWriterBuilder` (to_string.rs:23-29), together with the writer's implementation of `Write`. -/
structure Builder (T W : Type) where
  wr : Writer W
  style : Style
  customFormatters : List (CustomFormatter T W)
  indentBy : Str
  leadingIndent : Str
  printContext : Option (ContextPrinter T W)

/-- `ToWriterBuilder::new` (to_string.rs:35-43). -/
def Builder.new (wr : Writer W) : Builder T W := ⟨wr, .normal, [], [' ', ' '], [], none⟩
/-- `ToWriterBuilder::compact` (to_string.rs:67-70). -/
def Builder.compact (b : Builder T W) : Builder T W := { b with style := .compact }
/-- `ToWriterBuilder::pretty` (to_string.rs:103-106). -/
def Builder.pretty (b : Builder T W) : Builder T W := { b with style := .pretty 0 }
/-- `ToWriterBuilder::leading_indent` (to_string.rs:142-145). -/
def Builder.setLeadingIndent (b : Builder T W) (s : Str) : Builder T W := { b with leadingIndent := s }
/-- `ToWriterBuilder::indent_by` (to_string.rs:181-184). -/
def Builder.setIndentBy (b : Builder T W) (s : Str) : Builder T W := { b with indentBy := s }
/-- `ToWriterBuilder::format_context` (to_string.rs:216-222). -/
def Builder.formatContext (b : Builder T W) (p : ContextPrinter T W) : Builder T W :=
  { b with printContext := some p }
/-- `ToWriterBuilder::add_custom_formatter` (to_string.rs:235-241). -/
def Builder.addCustomFormatter (b : Builder T W) (f : CustomFormatter T W) : Builder T W :=
  { b with customFormatters := b.customFormatters ++ [f] }

/-- The mutable part of `struct Formatter` (to_string.rs:261-268). -/
structure Fmt (W : Type) where
  writer : W
  style : Style

/-- A formatting function: `core::fmt::Result` and the changed formatter. (to_string.rs:407) -/
abbrev FM (W : Type) := Fmt W → Bool × Fmt W

/-- Sequencing with `?`. (to_string.rs:430-446, and everywhere) -/
def FM.andThen (a b : FM W) : FM W := fun f => match a f with
  | (true, f') => b f'
  | (false, f') => (false, f')

@[inherit_doc] infixr:60 " >>> " => FM.andThen

/-- `Ok(())`. (to_string.rs:287) -/
def FM.ok : FM W := fun f => (true, f)
/-- `Err(core::fmt::Error)`. (to_string.rs:31) -/
def FM.err : FM W := fun f => (false, f)

/-- `Formatter::write_str` (to_string.rs:329-335), and `write_char`. -/
def writeStr (b : Builder T W) (s : Str) : FM W := fun f =>
  ((b.wr s f.writer).1, { f with writer := (b.wr s f.writer).2 })

/-- `indent_step` (to_string.rs:271-277). -/
def indentStep : FM W := fun f => (true, { f with style := match f.style with
  | .compact => .compact
  | .normal => .normal
  | .pretty n => .pretty (n + 1) })

/-- `unindent_step` (to_string.rs:278-284). -/
def unindentStep : FM W := fun f => (true, { f with style := match f.style with
  | .compact => .compact
  | .normal => .normal
  | .pretty n => .pretty (n - 1) })

/-- The loop of `write_newline` (to_string.rs:345-347). -/
def writeIndents (b : Builder T W) : Nat → FM W
  | 0 => FM.ok
  | n + 1 => writeStr b b.indentBy >>> writeIndents b n

/-- `write_newline` (to_string.rs:337-349). -/
def writeNewline (b : Builder T W) (n : Nat) : FM W :=
  writeStr b ['\n'] >>> writeStr b b.leadingIndent >>> writeIndents b n

/-- `space` (to_string.rs:285-290). -/
def space (b : Builder T W) : FM W := fun f => match f.style with
  | .compact => (true, f)
  | .normal | .pretty _ => writeStr b [' '] f

/-- `newline` (to_string.rs:291-298). -/
def newline (b : Builder T W) : FM W := fun f => match f.style with
  | .compact | .normal => (true, f)
  | .pretty n => writeNewline b n f

/-- `item_separator` (to_string.rs:299-307). -/
def itemSeparator (b : Builder T W) : FM W := fun f => match f.style with
  | .compact => (true, f)
  | .normal => writeStr b [' '] f
  | .pretty n => writeNewline b n f

/-- The loop of `print_custom_format` (to_string.rs:319-325). -/
def runFormatters : List (CustomFormatter T W) → Value T → W → Option Bool × W
  | [], _, w => (none, w)
  | p :: ps, v, w => match p v w with
    | (some r, w') => (some r, w')
    | (none, w') => runFormatters ps v w'

/-- `to_escape_code` (string_helpers.rs:20-32). -/
def toEscapeCode (c : Char) : Option Char :=
  if c = '\n' then some 'n'
  else if c = '\t' then some 't'
  else if c = '"' then some '"'
  else if c = '\'' then some '\''
  else if c = '\r' then some 'r'
  else if c = '\\' then some '\\'
  else if c = Char.ofNat 0 then some '0'
  else none

/-- The `match` of to_string.rs:522-528, 535-541. -/
def writeEscaped (b : Builder T W) (c : Char) : FM W := match toEscapeCode c with
  | some e => writeStr b ['\\'] >>> writeStr b [e]
  | none => writeStr b [c]

/-- The loop of `fmt_string` (to_string.rs:521-529). -/
def writeChars (b : Builder T W) : Str → FM W
  | [] => FM.ok
  | c :: s => writeEscaped b c >>> writeChars b s

/-- `fmt_string` (to_string.rs:519-531). -/
def fmtString (b : Builder T W) (s : Str) : FM W :=
  writeStr b ['"'] >>> writeChars b s >>> writeStr b ['"']

/-- `fmt_char` (to_string.rs:533-543). -/
def fmtChar (b : Builder T W) (c : Char) : FM W :=
  writeStr b ['\''] >>> writeEscaped b c >>> writeStr b ['\'']

/-- The loop of `fmt_bitsequence` (to_string.rs:550-555). -/
def writeBits (b : Builder T W) : List Bool → FM W
  | [] => FM.ok
  | true :: r => writeStr b ['1'] >>> writeBits b r
  | false :: r => writeStr b ['0'] >>> writeBits b r

/-- `fmt_bitsequence` (to_string.rs:545-557). -/
def fmtBitSequence (b : Builder T W) (bs : List Bool) : FM W :=
  writeStr b ['<'] >>> writeBits b bs >>> writeStr b ['>']

/-- `is_ident` (to_string.rs:560-576). -/
def isIdent (u : Uni) : Str → Bool
  | [] => false
  | c :: cs => u.alpha c && cs.all (fun d => u.alnum d || d == '_')

/-- One decimal digit. (to_string.rs:510-511) -/
def digitChar (n : Nat) : Char := Char.ofNat (48 + n)

/-- Decimal digits of a number, at most `fuel` of them (Rust core's `Display` for integers uses a buffer of
39 digits for `u128`). (to_string.rs:510-511) -/
def decDigits : Nat → Nat → Str
  | 0, _ => []
  | fuel + 1, n => if n < 10 then [digitChar n] else decDigits fuel (n / 10) ++ [digitChar (n % 10)]

/-- `write!(f, "{n}")` for `u128` (Rust core, `pad_integral` without flags): one `write_str` with the digits. (to_string.rs:511) -/
def writeU128 (b : Builder T W) (n : U128) : FM W := writeStr b (decDigits 39 n.val)

/-- `write!(f, "{n}")` for `i128` (Rust core, `pad_integral` without flags): the sign, then the digits of the absolute
value. (to_string.rs:510) -/
def writeI128 (b : Builder T W) (n : I128) : FM W :=
  if n.val < 0 then writeStr b ['-'] >>> writeStr b (decDigits 39 n.val.natAbs)
  else writeStr b (decDigits 39 n.val.natAbs)

/-- `fmt_primitive` (to_string.rs:502-517). -/
def fmtPrimitive (b : Builder T W) : Primitive → FM W
  | .bool true => writeStr b ['t', 'r', 'u', 'e']
  | .bool false => writeStr b ['f', 'a', 'l', 's', 'e']
  | .char c => fmtChar b c
  | .i128 n => writeI128 b n
  | .u128 n => writeU128 b n
  | .string s => fmtString b s
  | .u256 _ => FM.err
  | .i256 _ => FM.err

/-- to_string.rs:308-317, 408-412. -/
def fmtContext (b : Builder T W) (c : T) : FM W := match b.printContext with
  | none => FM.ok
  | some p => writeStr b ['<'] >>>
      (fun f => ((p c f.writer).1, { f with writer := (p c f.writer).2 })) >>> writeStr b ['>', ' ']

mutual
/-- `fmt_value` (to_string.rs:407-416). -/
def fmtValue (u : Uni) (b : Builder T W) : Value T → FM W
  | .mk d c => fmtContext b c >>> fun f =>
    match runFormatters b.customFormatters (.mk d c) f.writer with
    | (some r, w) => (r, { f with writer := w })
    | (none, w) => fmtValueDef u b d { f with writer := w }
/-- `fmt_valuedef` (to_string.rs:418-428). -/
def fmtValueDef (u : Uni) (b : Builder T W) : ValueDef T → FM W
  | .composite c => fmtComposite u b c
  | .variant v => fmtVariant u b v
  | .bitSequence bs => fmtBitSequence b bs
  | .primitive p => fmtPrimitive b p
/-- `fmt_variant` (to_string.rs:430-446). -/
def fmtVariant (u : Uni) (b : Builder T W) : Variant T → FM W
  | .mk n c => (if isIdent u n then writeStr b n else writeStr b ['v'] >>> fmtString b n) >>>
      space b >>> fmtComposite u b c
/-- `fmt_composite` (to_string.rs:448-500). -/
def fmtComposite (u : Uni) (b : Builder T W) : Composite T → FM W
  | .named fs =>
    if fs.isEmpty then writeStr b ['{', '}']
    else writeStr b ['{'] >>> indentStep >>> itemSeparator b >>> fmtFields u b 0 fs >>>
      unindentStep >>> itemSeparator b >>> writeStr b ['}']
  | .unnamed vs =>
    if vs.isEmpty then writeStr b ['(', ')']
    else writeStr b ['('] >>> indentStep >>> newline b >>> fmtVals u b 0 vs >>>
      unindentStep >>> newline b >>> writeStr b [')']
/-- The loop of to_string.rs:460-473; `idx` is the index of the next field. -/
def fmtFields (u : Uni) (b : Builder T W) : Nat → List (Str × Value T) → FM W
  | _, [] => FM.ok
  | idx, (n, v) :: r => (if idx ≠ 0 then writeStr b [','] >>> itemSeparator b else FM.ok) >>>
      (if isIdent u n then writeStr b n else fmtString b n) >>> writeStr b [':'] >>> space b >>>
      fmtValue u b v >>> fmtFields u b (idx + 1) r
/-- The loop of to_string.rs:486-492. -/
def fmtVals (u : Uni) (b : Builder T W) : Nat → List (Value T) → FM W
  | _, [] => FM.ok
  | idx, v :: r => (if idx ≠ 0 then writeStr b [','] >>> itemSeparator b else FM.ok) >>>
      fmtValue u b v >>> fmtVals u b (idx + 1) r
end

/-- `ToWriterBuilder::write` (to_string.rs:244-247), also returning the writer. -/
def Builder.write (u : Uni) (b : Builder T W) (v : Value T) (w : W) : Bool × W :=
  match fmtValue u b v ⟨w, b.style⟩ with
  | (ok, f) => (ok, f.writer)

/-- `Write for String` (Rust alloc): appends, never fails. (lib.rs:446) -/
def stringWriter : Writer Str := fun s w => (true, w ++ s)

/-- `default_builder` (to_string.rs:365-371). -/
def defaultBuilder (wr : Writer W) (alternate : Bool) : Builder T W :=
  if alternate then (Builder.new wr).pretty else Builder.new wr

/-- `Display for Value` (to_string.rs:373-384) into any writer: `fmt_valuedef` with the default builder. -/
def Value.display (u : Uni) (wr : Writer W) (alternate : Bool) : Value T → W → Bool × W
  | .mk d _, w => match fmtValueDef u (defaultBuilder (T := T) wr alternate) d ⟨w, (defaultBuilder (T := T) wr alternate).style⟩ with
    | (ok, f) => (ok, f.writer)

/-- `Display for Composite` (to_string.rs:386-391). -/
def Composite.display (u : Uni) (wr : Writer W) (alternate : Bool) (c : Composite T) (w : W) : Bool × W :=
  match fmtComposite u (defaultBuilder (T := T) wr alternate) c ⟨w, (defaultBuilder (T := T) wr alternate).style⟩ with
  | (ok, f) => (ok, f.writer)

/-- `Display for Variant` (to_string.rs:393-398). -/
def Variant.display (u : Uni) (wr : Writer W) (alternate : Bool) (c : Variant T) (w : W) : Bool × W :=
  match fmtVariant u (defaultBuilder (T := T) wr alternate) c ⟨w, (defaultBuilder (T := T) wr alternate).style⟩ with
  | (ok, f) => (ok, f.writer)

/-- `Display for Primitive` (to_string.rs:400-405). -/
def Primitive.display (wr : Writer W) (alternate : Bool) (p : Primitive) (w : W) : Bool × W :=
  match fmtPrimitive (defaultBuilder (T := Unit) wr alternate) p ⟨w, (defaultBuilder (T := Unit) wr alternate).style⟩ with
  | (ok, f) => (ok, f.writer)

/-- `value.to_string()` and `format!("{value:#}")`; `none` stands for the panic that `to_string` raises when
`Display` fails. (lib.rs:446-448) -/
def Value.toString (u : Uni) (alternate : Bool) (v : Value T) : Option Str :=
  match v.display u stringWriter alternate [] with
  | (true, s) => some s
  | (false, _) => none

/-- Format with a builder into a new string. (to_string.rs:244-247 with a `String`) -/
def Builder.toString (u : Uni) (b : Builder T Str) (v : Value T) : Option Str :=
  match b.write u v [] with
  | (true, s) => some s
  | (false, _) => none

/-! ### format_hex (custom_formatters/hex.rs) -/

/-- `u4_to_hex` (custom_formatters/hex.rs:74-78). -/
def u4ToHex (n : Nat) : Char := ['0', '1', '2', '3', '4', '5', '6', '7', '8', '9', 'A', 'B', 'C', 'D', 'E', 'F'].getD n '?'

/-- A value is a `U128` primitive (custom_formatters/hex.rs:51, 65). -/
def Value.asU128Prim : Value T → Option U128
  | .mk (.primitive (.u128 n)) _ => some n
  | _ => none

/-- The loop of `value_to_hex` (custom_formatters/hex.rs:64-71); a failing write ends it. `n as u8` is `n % 256`, and `n >> 4` and
`n & 15` of a `u8` are `/ 16` and `% 16`. -/
def hexLoop (wr : Writer W) : List (Value T) → W → Bool × W
  | [], w => (true, w)
  | v :: r, w => match v.asU128Prim with
    | none => hexLoop wr r w
    | some n => match wr [u4ToHex (n.val % 256 / 16)] w with
      | (false, w1) => (false, w1)
      | (true, w1) => match wr [u4ToHex (n.val % 256 % 16)] w1 with
        | (false, w2) => (false, w2)
        | (true, w2) => hexLoop wr r w2

/-- `format_hex` (custom_formatters/hex.rs:44-59). -/
def formatHex (wr : Writer W) : CustomFormatter T W
  | .mk (.composite (.unnamed vs)) _, w =>
    if vs.isEmpty then (none, w)
    else if vs.all (fun v => match v.asU128Prim with
      | some n => n.val < 256
      | none => false) then
      match wr ['0', 'x'] w with
      | (false, w1) => (some false, w1)
      | (true, w1) => (some (hexLoop wr vs w1).1, (hexLoop wr vs w1).2)
    else (none, w)
  | _, w => (none, w)

end SV
