import Verif.Model.Parse
/-
When the parser asks for a value: the same walk through the code as in `Model/Parse`, that records instead of a result the texts that are left
whenever `parse_value` is entered. (`parse_value` begins by offering this text to the custom parsers, from_string.rs:227-229.)
The parameter `asks` is the record of an inner call of `parse_value`, `pv` its result.
-/
namespace SV

variable (u : Uni)

/-- In `parse_field_name_and_value` (from_string.rs:530-540). -/
def asksField (asks : Toks → List Str) (t : Toks) : List Str :=
  match parseFieldName u t with
  | (.error _, _) => []
  | (.ok _, t1) => match skipSpacedSep u ':' t1 with
    | (false, _) => []
    | (true, t2) => asks t2

/-- In `sep_by_err` after the first item (from_string.rs:300-305, 330-332). -/
def asksSepRest {α ε : Type} (item : Toks → Option (Except ε α × Toks)) (asks : Toks → List Str) (sep : Toks → Bool × Toks) : Nat → Toks → List Str
  | 0, _ => []
  | fuel + 1, t => match sep t with
    | (false, _) => []
    | (true, t1) => asks t1 ++ match item t1 with
      | some (.ok _, t2) => asksSepRest item asks sep fuel t2
      | _ => []

/-- In `sep_by_err` (from_string.rs:300-305, 330-332). -/
def asksSep {α ε : Type} (item : Toks → Option (Except ε α × Toks)) (asks : Toks → List Str) (sep : Toks → Bool × Toks) (t : Toks) : List Str :=
  asks t ++ match item t with
    | some (.ok _, t1) => asksSepRest item asks sep (t1.rest.length + 1) t1
    | _ => []

/-- In `parse_named_composite` (from_string.rs:285-312). -/
def asksNamed (pv : Toks → VRes) (asks : Toks → List Str) (t : Toks) : List Str :=
  match t.token '{' with
  | (false, _) => []
  | (true, t1) => match (skipWs u t1).token '}' with
    | (true, _) => []
    | (false, t3) => asksSep (parseField u pv) (asksField u asks) (skipSpacedSep u ',') t3

/-- In `parse_unnamed_composite` (from_string.rs:315-339). -/
def asksUnnamed (pv : Toks → VRes) (asks : Toks → List Str) (t : Toks) : List Str :=
  match t.token '(' with
  | (false, _) => []
  | (true, t1) => match (skipWs u t1).token ')' with
    | (true, _) => []
    | (false, t3) => asksSep pv asks (skipSpacedSep u ',') t3

/-- In one alternative of `yap::one_of!`, with result `r` and record `a`, and in the following ones if they are tried. (from_string.rs:261-270) -/
def asksAlt {α : Type} (r : RRes α) (a : List Str) (k : Unit → List Str) : List Str :=
  a ++ match r with
    | some (.error none, _) => k ()
    | _ => []

/-- In `parse_variant` (from_string.rs:342-363). -/
def asksVariant (pv : Toks → VRes) (asks : Toks → List Str) (t : Toks) : List Str :=
  match parseOptionalVariantIdent u t with
  | (none, _) => []
  | (some _, t1) =>
    let t2 := skipWs u t1
    asksAlt (parseNamedComposite u pv t2) (asksNamed u pv asks t2) fun _ =>
    asksAlt (parseUnnamedComposite u pv t2) (asksUnnamed u pv asks t2) fun _ => []

/-- In the `one_of!` of `parse_value` (from_string.rs:261-270). -/
def asksBuiltin (pv : Toks → VRes) (asks : Toks → List Str) (t : Toks) : List Str :=
  asksAlt (some (parseBool t)) [] fun _ =>
  asksAlt (some (parseChar t)) [] fun _ =>
  asksAlt (some (parseString t)) [] fun _ =>
  asksAlt (some (parseNumber t)) [] fun _ =>
  asksAlt (parseNamedComposite u pv t) (asksNamed u pv asks t) fun _ =>
  asksAlt (parseUnnamedComposite u pv t) (asksUnnamed u pv asks t) fun _ =>
  asksAlt (some (parseBitSequence t)) [] fun _ =>
  asksAlt (parseVariant u pv t) (asksVariant u pv asks t) fun _ => []

/-- In `parse_value` (from_string.rs:222-277). -/
def asksStep (cps : List CustomParser) (pv : Toks → VRes) (asks : Toks → List Str) (t : Toks) : List Str :=
  t.rest :: match runCustom cps t.rest with
    | (some _, _) => []
    | (none, _) => asksBuiltin u pv asks t

/-- In `parse_value`, with recursion fuel. (from_string.rs:222-277) -/
def asksN (cps : List CustomParser) : Nat → Toks → List Str
  | 0, _ => []
  | n + 1, t => asksStep u cps (parseValueN u cps n) (asksN cps n) t

/-- In `FromStrBuilder::parse` (from_string.rs:60-65): the texts on which `parse_value` is started, one after another. -/
def asks (cps : List CustomParser) (s : Str) : List Str := asksN u cps (s.length + 1) (Toks.new s)

end SV
