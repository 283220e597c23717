import Verif.Model.Value
import Verif.Model.Unicode
import Verif.Model.Tokens
/-
Model of /repo/src/string_impls/from_string.rs and string_helpers.rs.

Conventions. A parser is a function from the token state to a result and the new token state. A result
`Result<T, Option<ParseError>>` is `Except (Option ParseError) T`. Parsers that call `parse_value`
recursively take it as an argument `pv` (open recursion) and return `none` when the recursion
fuel of `pv` has run out, which is proved not to happen.
-/
namespace SV

/-- The error kinds of from_string.rs:126-218 that the parser can produce, plus `Custom`.
`ParseIntError` is reduced to whether the number overflowed upwards or downwards. -/
inductive ParseErrorKind where
  | expectedValue
  | invalidStartingCharacterInIdent
  | invalidFieldName
  | missingFieldSeparator (c : Char)
  | expectedCloserToMatch (c : Char) (pos : Nat)
  | charExpectedValidCharacter
  | charExpectedValidEscapeCode
  | charExpectedClosingQuoteToMatch (pos : Nat)
  | strExpectedClosingQuoteToMatch (pos : Nat)
  | strExpectedValidEscapeCode
  | numExpectedDigit
  | numPosOverflow
  | numNegOverflow
  | bitsExpectedClosingBracketToMatch (pos : Nat)
  | bitsInvalidCharacter
  | custom (s : Str)
  deriving DecidableEq

/-- `struct ParseError` (from_string.rs:70-78). -/
structure ParseError where
  startLoc : Nat
  endLoc : Option Nat
  err : ParseErrorKind
  deriving DecidableEq

/-- `.at(loc)` (from_string.rs:84-86, 108-110). -/
def ParseErrorKind.at (k : ParseErrorKind) (loc : Nat) : ParseError := ⟨loc, none, k⟩
/-- `.between(start, end)` (from_string.rs:88-90, 116-118). -/
def ParseErrorKind.between (k : ParseErrorKind) (s e : Nat) : ParseError := ⟨s, some e, k⟩
/-- `.at_one(loc)` (from_string.rs:112-114). -/
def ParseErrorKind.atOne (k : ParseErrorKind) (loc : Nat) : ParseError := ⟨loc, some (loc + 1), k⟩

/-- Result of a parser that does not recurse. (from_string.rs:366-429) -/
abbrev PRes (α : Type) := Except (Option ParseError) α × Toks

/-- `from_escape_code` (string_helpers.rs:38-50). -/
def fromEscapeCode (c : Char) : Option Char :=
  if c = 'n' then some '\n'
  else if c = 't' then some '\t'
  else if c = '"' then some '"'
  else if c = '\'' then some '\''
  else if c = 'r' then some '\r'
  else if c = '\\' then some '\\'
  else if c = '0' then some (Char.ofNat 0)
  else none

/-- `parse_bool` (from_string.rs:386-394); `None` becomes `Err(None)` as in line 262. -/
def parseBool (t : Toks) : PRes Bool :=
  match t.tokens ['t', 'r', 'u', 'e'] with
  | (true, t1) => (.ok true, t1)
  | (false, t1) => match t1.tokens ['f', 'a', 'l', 's', 'e'] with
    | (true, t2) => (.ok false, t2)
    | (false, t2) => (.error none, t2)

/-- `parse_char` lines 422-425 of from_string.rs: the closing quote. -/
def parseCharClose (start : Nat) (c : Char) (t : Toks) : PRes Char :=
  match t.token '\'' with
  | (false, t1) => (.error (some ((ParseErrorKind.charExpectedClosingQuoteToMatch start).atOne t1.off)), t1)
  | (true, t1) => (.ok c, t1)

/-- `parse_char` (from_string.rs:397-426). -/
def parseChar (t : Toks) : PRes Char :=
  let start := t.off
  match t.token '\'' with
  | (false, t1) => (.error none, t1)
  | (true, t1) => match t1.next with
    | (none, t2) => (.error (some (ParseErrorKind.charExpectedValidCharacter.atOne t2.off)), t2)
    | (some c, t2) =>
      if c = '\\' then match t2.next with
        | (none, t3) => (.error (some (ParseErrorKind.charExpectedValidEscapeCode.atOne t3.off)), t3)
        | (some e, t3) => match fromEscapeCode e with
          | none => (.error (some (ParseErrorKind.charExpectedValidEscapeCode.atOne t3.off)), t3)
          | some c => parseCharClose start c t3
      else parseCharClose start c t2

/-- The value of a string of decimal digits, most significant first, as `str::parse::<u128>` computes
it before checking for overflow (Rust core). (from_string.rs:467, 472) -/
def digitsVal (ds : Str) : Nat := ds.foldl (fun n c => 10 * n + (c.toNat - 48)) 0

/-- The predicate of from_string.rs:439-446, with its captured `seen_n`. -/
def numPred (seen : Bool) (c : Char) : Bool × Bool :=
  if isDigit c then (true, true) else (seen && c == '_', seen)

/-- `parse_number` (from_string.rs:429-476). The call of `str::parse` on `sign ++ digits` (digits is
not empty) is the exact decimal value with a range check. -/
def parseNumber (t : Toks) : PRes Primitive :=
  let start := t.off
  let (plus, t1) := t.token '+'
  let (isPositive, t2) := if plus then (true, t1) else
    match t1.token '-' with
    | (minus, t2) => (!minus, t2)
  let (taken, seen, t3) := takeWhileS numPred false t2.rest t2.off
  let digits := taken.filter isDigit
  if t3.off = start then (.error none, t3)
  else if !seen then
    (.error (some (ParseErrorKind.numExpectedDigit.between t3.off (t3.off + 1))), t3)
  else if isPositive then
    match U128.ofNat? (digitsVal digits) with
    | some n => (.ok (.u128 n), t3)
    | none => (.error (some (ParseErrorKind.numPosOverflow.between start t3.off)), t3)
  else
    match I128.ofInt? (-(digitsVal digits : Int)) with
    | some n => (.ok (.i128 n), t3)
    | none => (.error (some (ParseErrorKind.numNegOverflow.between start t3.off)), t3)

/-- The loop of `parse_string` (from_string.rs:485-526). -/
def strLoop (start : Nat) : Str → Bool → Str → Nat → PRes Str
  | _, _, [], o =>
    (.error (some ((ParseErrorKind.strExpectedClosingQuoteToMatch start).atOne o)), ⟨[], o⟩)
  | out, esc, c :: r, o =>
    if c = '\\' ∧ esc = false then strLoop start out true r (o + c.utf8Size)
    else if esc then
      match fromEscapeCode c with
      | some d => strLoop start (out ++ [d]) false r (o + c.utf8Size)
      | none =>
        (.error (some (ParseErrorKind.strExpectedValidEscapeCode.between o (o + 1))),
          ⟨r, o + c.utf8Size⟩)
    else if c = '"' then (.ok out, ⟨r, o + c.utf8Size⟩)
    else strLoop start (out ++ [c]) false r (o + c.utf8Size)

/-- `parse_string` (from_string.rs:479-527). -/
def parseString (t : Toks) : PRes Str :=
  let start := t.off
  match t.token '"' with
  | (false, t1) => (.error none, t1)
  | (true, t1) => strLoop start [] false t1.rest t1.off

/-- `parse_bit_sequence` (from_string.rs:366-383). -/
def parseBitSequence (t : Toks) : PRes (List Bool) :=
  let start := t.off
  match t.token '<' with
  | (false, t1) => (.error none, t1)
  | (true, t1) =>
    let (taken, t2) := t1.takeWhile (fun c => c == '0' || c == '1')
    let bits := taken.map (fun c => c == '1')
    match t2.token '>' with
    | (false, t3) =>
      (.error (some ((ParseErrorKind.bitsExpectedClosingBracketToMatch start).between t3.off (t3.off + 1))), t3)
    | (true, t3) => (.ok bits, t3)

variable (u : Uni)

/-- `skip_whitespace` (from_string.rs:588-590). -/
def skipWs (t : Toks) : Toks := (t.skipWhile u.ws).2

/-- `skip_spaced_separator` (from_string.rs:593-598). -/
def skipSpacedSep (s : Char) (t : Toks) : Bool × Toks :=
  let t1 := skipWs u t
  let (isSep, t2) := t1.token s
  (isSep, skipWs u t2)

/-- `parse_ident` (from_string.rs:575-585). -/
def parseIdent (t : Toks) : Except ParseError Str × Toks :=
  let start := t
  let (n, t1) := t.skipWhile u.alpha
  if n = 0 then (.error (ParseErrorKind.invalidStartingCharacterInIdent.atOne start.off), t1)
  else
    let (_, t2) := t1.skipWhile (fun c => u.alnum c || c == '_')
    (.ok (Toks.slice start t2), t2)

/-- `parse_field_name` (from_string.rs:543-554). `one_of!` puts the location back after a `None`. -/
def parseFieldName (t : Toks) : Except ParseError Str × Toks :=
  match parseString t with
  | (.ok s, t1) => (.ok s, t1)
  | (.error (some e), t1) => (.error e, t1)
  | (.error none, _) => parseIdent u t

/-- `parse_i_string` (from_string.rs:561-566). -/
def parseIString (t : Toks) : Option Str × Toks :=
  match t.next with
  | (none, t1) => (none, t1)
  | (some c, t1) =>
    if c ≠ 'v' then (none, t1)
    else match parseString t1 with
      | (.ok s, t2) => (some s, t2)
      | (.error _, t2) => (none, t2)

/-- `parse_optional_variant_ident` (from_string.rs:560-572). `one_of!` puts the location back after a
`None`. -/
def parseOptionalVariantIdent (t : Toks) : Option Str × Toks :=
  match parseIString t with
  | (some s, t1) => (some s, t1)
  | (none, _) => match parseIdent u t with
    | (.ok s, t1) => (some s, t1)
    | (.error _, _) => (none, t)

/-- Result of `parse_value`; `none` when the recursion fuel has run out. (from_string.rs:222-226) -/
abbrev VRes := Option (Except ParseError (Value Unit) × Toks)

/-- Result of the recursive parsers. (from_string.rs:285-288) -/
abbrev RRes (α : Type) := Option (PRes α)

/-- `parse_field_name_and_value` (from_string.rs:530-540). -/
def parseField (pv : Toks → VRes) (t : Toks) :
    Option (Except ParseError (Str × Value Unit) × Toks) :=
  match parseFieldName u t with
  | (.error e, t1) => some (.error e, t1)
  | (.ok name, t1) => match skipSpacedSep u ':' t1 with
    | (false, t2) => some (.error ((ParseErrorKind.missingFieldSeparator ':').atOne t2.off), t2)
    | (true, t2) => match pv t2 with
      | none => none
      | some (.error e, t3) => some (.error e, t3)
      | some (.ok v, t3) => some (.ok (name, v), t3)

/-- `parse_named_composite` (from_string.rs:285-312). -/
def parseNamedComposite (pv : Toks → VRes) (t : Toks) : RRes (Composite Unit) :=
  let start := t.off
  match t.token '{' with
  | (false, t1) => some (.error none, t1)
  | (true, t1) =>
    let t2 := skipWs u t1
    match t2.token '}' with
    | (true, t3) => some (.ok (.named []), t3)
    | (false, t3) => match sepByErr (parseField u pv) (skipSpacedSep u ',') t3 with
      | none => none
      | some (.error e, t4) => some (.error (some e), t4)
      | some (.ok vals, t4) =>
        let t5 := skipWs u t4
        match t5.token '}' with
        | (false, t6) =>
          some (.error (some ((ParseErrorKind.expectedCloserToMatch '}' start).atOne t6.off)), t6)
        | (true, t6) => some (.ok (.named vals), t6)

/-- `parse_unnamed_composite` (from_string.rs:315-339). -/
def parseUnnamedComposite (pv : Toks → VRes) (t : Toks) : RRes (Composite Unit) :=
  let start := t.off
  match t.token '(' with
  | (false, t1) => some (.error none, t1)
  | (true, t1) =>
    let t2 := skipWs u t1
    match t2.token ')' with
    | (true, t3) => some (.ok (.unnamed []), t3)
    | (false, t3) => match sepByErr pv (skipSpacedSep u ',') t3 with
      | none => none
      | some (.error e, t4) => some (.error (some e), t4)
      | some (.ok vals, t4) =>
        let t5 := skipWs u t4
        match t5.token ')' with
        | (false, t6) =>
          some (.error (some ((ParseErrorKind.expectedCloserToMatch ')' start).atOne t6.off)), t6)
        | (true, t6) => some (.ok (.unnamed vals), t6)

/-- One alternative of `yap::one_of!` over `transpose_err(..)` (dependency model; from_string.rs:261-270,
353-356, 601-607): if the first alternative yields `Err(None)`, go on with the next one (which starts again from the same
location, because it closes over it), else stop with that result. -/
def orAlt {α : Type} (r : RRes α) (k : Unit → RRes α) : RRes α :=
  match r with
  | some (.error none, _) => k ()
  | r => r

/-- `Result::map` on a parser's result. (from_string.rs:261-270) -/
def PRes.map {α β : Type} (f : α → β) : PRes α → PRes β
  | (.ok a, t) => (.ok (f a), t)
  | (.error e, t) => (.error e, t)

/-- `parse_variant` (from_string.rs:342-363). -/
def parseVariant (pv : Toks → VRes) (t : Toks) : RRes (Variant Unit) :=
  match parseOptionalVariantIdent u t with
  | (none, t1) => some (.error none, t1)
  | (some ident, t1) =>
    let t2 := skipWs u t1
    match orAlt (parseNamedComposite u pv t2) (fun _ =>
        orAlt (parseUnnamedComposite u pv t2) (fun _ => some (.error none, t2))) with
    | none => none
    | some (.ok values, t3) => some (.ok (.mk ident values), t3)
    | some (.error e, t3) => some (.error e, t3)

/-- The `one_of!` of `parse_value` and the match after it (from_string.rs:261-276). -/
def parseBuiltin (pv : Toks → VRes) (t : Toks) : VRes :=
  let val : RRes (Value Unit) :=
    orAlt (some ((parseBool t).map Value.bool)) fun _ =>
    orAlt (some ((parseChar t).map Value.char)) fun _ =>
    orAlt (some ((parseString t).map Value.string)) fun _ =>
    orAlt (some ((parseNumber t).map Value.primitive)) fun _ =>
    orAlt ((parseNamedComposite u pv t).map (PRes.map fun c => .mk (.composite c) ())) fun _ =>
    orAlt ((parseUnnamedComposite u pv t).map (PRes.map fun c => .mk (.composite c) ())) fun _ =>
    orAlt (some ((parseBitSequence t).map Value.bitSequence)) fun _ =>
    orAlt ((parseVariant u pv t).map (PRes.map fun v => .mk (.variant v) ())) fun _ =>
    some (.error none, t)
  match val with
  | none => none
  | some (.ok v, t1) => some (.ok v, t1)
  | some (.error (some e), t1) => some (.error e, t1)
  | some (.error none, t1) => some (.error (ParseErrorKind.expectedValue.at t1.off), t1)

/-- `type CustomParser` (from_string.rs:31): given the string, whether and with what result it
answers, and what it left in the `&mut &str` (which it may also change when it answers `None`). The parsers are `Fn`
without mutable state of their own. -/
abbrev CustomParser := Str → Option (Except ParseError (Value Unit)) × Str

/-- The loop over custom parsers, from_string.rs:232-255: `cursor` is shared between the parsers. -/
def runCustom : List CustomParser → Str → Option (Except ParseError (Value Unit)) × Str
  | [], cursor => (none, cursor)
  | p :: ps, cursor => match p cursor with
    | (some r, cursor') => (some r, cursor')
    | (none, cursor') => runCustom ps cursor'

/-- `parse_value` (from_string.rs:222-277). Line 239 counts the *bytes* consumed by the custom parser, and calls
`t.next()`, which advances by one *char*, that many times. An empty list of custom parsers does nothing, as in
the code. -/
def parseValueStep (cps : List CustomParser) (pv : Toks → VRes) (t : Toks) : VRes :=
  match runCustom cps t.rest with
  | (some (.ok v), cursor) => some (.ok v, Toks.nextN (utf8Len t.rest - utf8Len cursor) t)
  | (some (.error e), _) =>
    some (.error ⟨t.off + e.startLoc, e.endLoc.map (fun l => t.off + l), e.err⟩, t)
  | (none, _) => parseBuiltin u pv t

/-- `parse_value` with recursion fuel. (from_string.rs:222-277) -/
def parseValueN (cps : List CustomParser) : Nat → Toks → VRes
  | 0, _ => none
  | n + 1, t => parseValueStep u cps (parseValueN cps n) t

/-- `FromStrBuilder::parse` (from_string.rs:60-65). The fuel is the number of characters plus one; theorem
`parse_total` shows it suffices. -/
def parse (cps : List CustomParser) (s : Str) :
    Option (Except ParseError (Value Unit) × Str) :=
  match parseValueN u cps (s.length + 1) (Toks.new s) with
  | none => none
  | some (r, t) => some (r, t.rest)

/-- `scale_value::stringify::from_str` (lib.rs): no custom parsers. -/
def fromStr (s : Str) : Option (Except ParseError (Value Unit) × Str) := parse u [] s

end SV
