import Verif.Model.Value
/-
Model of /repo/src/macros.rs: `value!`, a `macro_rules!` token muncher.

*Dependency model*: how rustc matches `macro_rules!` arms (in order, the first that matches is taken; a fragment `$e:expr` is
skipped if the next token cannot begin an expression, and is a fatal error, with no further arm tried, if what begins there is
not an expression) and which tokens are expressions (the parameter `Rust`).
Everything that does not compile is `none`, whatever the message.
-/
namespace SV
namespace Macro

/-- The delimiters of a token group. (macros.rs:118, 128) -/
inductive Delim where
  | paren | brace | bracket
  deriving DecidableEq

/-- Token trees as rustc hands them to a macro (dependency model). `ident`: identifiers and keywords, but `_`;
`lit`: a literal, with its text (`stringify!`) and the text of its value (`to_string()`); `punct`: all others. (`tt`, macros.rs:77) -/
inductive TT where
  | ident (s : Str)
  | lit (text shown : Str)
  | punct (s : Str)
  | group (d : Delim) (ts : List TT)

/-- The token `,`. (macros.rs:138) -/
def comma : TT := .punct [',']
/-- The token `:`. (macros.rs:190) -/
def colon : TT := .punct [':']

/-- What rustc finds when it looks for an expression at the beginning of some tokens (dependency model). (`expr`, macros.rs:138) -/
inductive Parsed where
  /-- the first token cannot begin an expression: the arm does not match -/
  | absent
  /-- a syntax error: fatal -/
  | broken
  /-- the expression and the tokens after it -/
  | upTo (e rest : List TT)

/-- What the macro depends on of the Rust language and of the place where it is used (dependency model). (what is used by macros.rs:75-324) -/
structure Rust where
  /-- the longest expression at the beginning -/
  parse : List TT → Parsed
  /-- `Value::from(e)`; none if that does not compile -/
  value : List TT → Option (Value Unit)
  /-- `literal_aware_stringify!` of an expression (macros.rs:315-324) that is not one identifier or one literal -/
  stringify : List TT → Str
  /-- nothing is no expression -/
  parse_nil : parse [] = .absent
  /-- an expression that was found is an expression by itself -/
  parse_split : ∀ {ts e rest}, parse ts = .upTo e rest → ts = e ++ rest ∧ parse e = .upTo e []
  /-- an expression is not continued by a comma or a colon -/
  parse_stop : ∀ {e t rest}, parse e = .upTo e [] → (t = comma ∨ t = colon) →
    parse (e ++ t :: rest) = .upTo e (t :: rest)

mutual
/-- What the macro passes to itself within parentheses: tokens of the user, or one expression. (macros.rs:118-140) -/
inductive Arg where
  | toks (ts : List TT)
  | frag (f : Frag)
/-- The expressions that the macro handles: an expression of the user that was matched by `$value:expr` (or `$key:expr`), or
an invocation `value_internal!(..)` that the macro wrote (and which is matched by `$value:expr` again). (macros.rs:115-187) -/
inductive Frag where
  | expr (ts : List TT)
  | call (a : Arg)
end

/-- The outcome of matching `$e:expr` and what is left of the group, if the tokens begin an expression. (macros.rs:138-157) -/
inductive Match where
  | absent
  | broken
  | upTo (f : Frag) (rest : List TT)

/-- Matching `$e:expr` (dependency model): an expression that was matched before is one token; so, by simplification, is an
invocation that the macro wrote (it is always alone in its parentheses). (macros.rs:138-157) -/
def matchExpr (R : Rust) : Arg → Match
  | .frag f => .upTo f []
  | .toks ts =>
    match R.parse ts with
    | .absent => .absent
    | .broken => .broken
    | .upTo e rest => .upTo (.expr e) rest

/-- `literal_aware_stringify!` (macros.rs:315-324) of tokens that are an expression: the value of a literal, the text of other
tokens. -/
def literalAwareStringify (R : Rust) : List TT → Str
  | [.ident s] => s
  | [.lit _ shown] => shown
  | ts => R.stringify ts

/-- `literal_aware_stringify!($key)` (macros.rs:169, 184) where `$key` is an expression. A key is never an invocation. -/
def keyText (R : Rust) : Frag → Option Str
  | .expr ts => some (literalAwareStringify R ts)
  | .call _ => none

/-- The value of an expression in the list of elements; `ev` expands `value_internal!(..)`. Expressions of the user are always wrapped in
`value_internal!(..)` by the time they get there. (macros.rs:115, 151, 164, 185) -/
def evalFrag (ev : Arg → Option (Value Unit)) : Frag → Option (Value Unit)
  | .expr _ => none
  | .call a => ev a

/-- The values of the elements of `vec_wrapper![..]` (macros.rs:115, 151; 305-311). -/
def evalFrags (ev : Arg → Option (Value Unit)) : List Frag → Option (List (Value Unit))
  | [] => some []
  | f :: r => do
    let v ← evalFrag ev f
    let vs ← evalFrags ev r
    some (v :: vs)

/-- The values of the pairs of `vec_wrapper![..]` (macros.rs:164, 185; 305-311). -/
def evalPairs (ev : Arg → Option (Value Unit)) : List (Str × Frag) → Option (List (Str × Value Unit))
  | [] => some []
  | (k, f) :: r => do
    let v ← evalFrag ev f
    let vs ← evalPairs ev r
    some ((k, v) :: vs)

/-- The last four arms for `@named [acc] (key) (rest)` (macros.rs:230-246); `go` is the expansion of `@named [acc] ..`.
Simplification: if an expression in parentheses and a colon were read and no value follows, the code adds more tokens to the key; it can
not become an expression again, and is an error here at once. -/
def addToken (R : Rust) {A : Type} (go : Arg → List TT → Option A) : Arg → List TT → Option A
  | .frag _, _ => none
  | .toks _, [] => none
  -- a colon at the first position, macros.rs:230-232
  | .toks [], .punct [':'] :: _ => none
  -- a comma in the key, macros.rs:235-237
  | .toks _, .punct [','] :: _ => none
  -- a key in parentheses, macros.rs:239-241; else one more token, macros.rs:244-246
  | .toks [], .group .paren g :: rest =>
    match matchExpr R (.toks g), rest with
    | .broken, _ => none
    | .upTo f [], .punct [':'] :: r => go (.frag f) (.punct [':'] :: r)
    | _, _ => go (.toks [.group .paren g]) rest
  -- one more token, macros.rs:244-246
  | .toks ks, t :: rest => go (.toks (ks ++ [t])) rest

mutual
/-- `value_internal!(..)` without `@` (macros.rs:253-300). The first argument is the recursion limit of the compiler (each
expansion of `value_internal!` takes one; those of the other macros are not counted). -/
def base (R : Rust) : Nat → Arg → Option (Value Unit)
  | 0, _ => none
  -- `() =>`, macros.rs:253-255
  | _ + 1, .toks [] => some (.unnamedComposite [])
  -- `(()) =>`, macros.rs:256-258
  | _ + 1, .toks [.group .paren []] => some (.unnamedComposite [])
  -- `({}) =>`, macros.rs:259-261
  | _ + 1, .toks [.group .brace []] => some (.namedComposite [])
  -- `({ $($tt:tt)* }) =>`, macros.rs:264-269
  | n + 1, .toks [.group .brace tt] => do
    let fields ← named R n [] (.toks []) tt
    some (.namedComposite fields)
  -- `($variant:ident { $($tt:tt)* }) =>`, macros.rs:272-278
  | n + 1, .toks [.ident v, .group .brace tt] => do
    let fields ← named R n [] (.toks []) tt
    some (.namedVariant v fields)
  -- `(( $($tt:tt)* )) =>`, macros.rs:281-286
  | n + 1, .toks [.group .paren tt] => do
    let fields ← unnamed R n [] (.toks tt) []
    some (.unnamedComposite fields)
  -- `($variant:ident ( $($tt:tt)* )) =>`, macros.rs:289-295
  | n + 1, .toks [.ident v, .group .paren tt] => do
    let fields ← unnamed R n [] (.toks tt) []
    some (.unnamedVariant v fields)
  -- `($val:expr) =>`, macros.rs:298-300
  | n + 1, a =>
    match matchExpr R a with
    | .upTo (.expr e) [] => R.value e
    -- `Value::from` of a `Value` is that value
    | .upTo (.call a') [] => base R n a'
    | _ => none
/-- `value_internal!(@unnamed [acc] (g) rest)` (macros.rs:115-157). -/
def unnamed (R : Rust) : Nat → List Frag → Arg → List TT → Option (List (Value Unit))
  | 0, _, _, _ => none
  -- done, macros.rs:115
  | n + 1, acc, .toks [], [] => evalFrags (base R n) acc
  -- unnamed composite, macros.rs:118-120
  | n + 1, acc, .toks (.group .paren a :: r), [] => unnamed R n acc (.frag (.call (.toks [.group .paren a]))) r
  -- unnamed variant, macros.rs:123-125
  | n + 1, acc, .toks (.ident v :: .group .paren a :: r), [] =>
    unnamed R n acc (.frag (.call (.toks [.ident v, .group .paren a]))) r
  -- named composite, macros.rs:128-130
  | n + 1, acc, .toks (.group .brace a :: r), [] => unnamed R n acc (.frag (.call (.toks [.group .brace a]))) r
  -- named variant, macros.rs:133-135
  | n + 1, acc, .toks (.ident v :: .group .brace a :: r), [] =>
    unnamed R n acc (.frag (.call (.toks [.ident v, .group .brace a]))) r
  | n + 1, acc, g, rest =>
    match matchExpr R g, rest with
    -- the current entry and a comma, macros.rs:138-140
    | .upTo f [], .punct [','] :: rest' => unnamed R n (acc ++ [f]) (.toks rest') []
    -- an unexpected token, macros.rs:144-147
    | .upTo _ [], _ :: _ => none
    -- the last entry, macros.rs:150-152
    | .upTo f [], [] => evalFrags (base R n) (acc ++ [.call (.frag f)])
    -- an expression and a comma, macros.rs:155-157
    | .upTo f (.punct [','] :: r), [] => unnamed R n acc (.frag (.call (.frag f))) (.punct [','] :: r)
    -- no arm, or a syntax error
    | _, _ => none
/-- `value_internal!(@named [acc] [key] (value) rest)` (macros.rs:167-187). The text of the key is taken when the entry is added to the
list (`let field_name`; each expansion has its own). -/
def namedKey (R : Rust) : Nat → List (Str × Frag) → Frag → Frag → List TT → Option (List (Str × Value Unit))
  | 0, _, _, _, _ => none
  -- the current entry and a comma, macros.rs:167-172
  | n + 1, acc, key, value, .punct [','] :: rest => do
    let k ← keyText R key
    named R n (acc ++ [(k, value)]) (.toks []) rest
  -- an unexpected token, macros.rs:176-179
  | _ + 1, _, _, _, _ :: _ => none
  -- the last entry, macros.rs:182-187
  | n + 1, acc, key, value, [] => do
    let k ← keyText R key
    evalPairs (base R n) (acc ++ [(k, value)])
/-- `value_internal!(@named [acc] (key) (rest))` (macros.rs:164, 190-246). -/
def named (R : Rust) : Nat → List (Str × Frag) → Arg → List TT → Option (List (Str × Value Unit))
  | 0, _, _, _ => none
  -- done, macros.rs:164
  | n + 1, acc, .toks [], [] => evalPairs (base R n) acc
  | n + 1, acc, k, rest =>
    match matchExpr R k, rest with
    | .broken, _ => none
    -- missing colon and value, macros.rs:225-227
    | .upTo _ [], [] => none
    -- missing value, macros.rs:220-222
    | .upTo _ [], [.punct [':']] => none
    -- an unnamed composite, macros.rs:190-192
    | .upTo f [], .punct [':'] :: .group .paren a :: r => namedKey R n acc f (.call (.toks [.group .paren a])) r
    -- an unnamed variant, macros.rs:195-197
    | .upTo f [], .punct [':'] :: .ident v :: .group .paren a :: r =>
      namedKey R n acc f (.call (.toks [.ident v, .group .paren a])) r
    -- a named composite, macros.rs:200-202
    | .upTo f [], .punct [':'] :: .group .brace a :: r => namedKey R n acc f (.call (.toks [.group .brace a])) r
    -- a named variant, macros.rs:205-207
    | .upTo f [], .punct [':'] :: .ident v :: .group .brace a :: r =>
      namedKey R n acc f (.call (.toks [.ident v, .group .brace a])) r
    | .upTo f [], .punct [':'] :: ts =>
      match matchExpr R (.toks ts) with
      | .broken => none
      -- a value and a comma, macros.rs:210-212
      | .upTo e (.punct [','] :: r) => namedKey R n acc f (.call (.frag e)) (.punct [','] :: r)
      -- the last value, macros.rs:215-217
      | .upTo e [] => namedKey R n acc f (.call (.frag e)) []
      | _ => addToken R (named R n acc) k rest
    | _, _ => addToken R (named R n acc) k rest
end

/-- `value!(..)` (macros.rs:75-80) with the given recursion limit. -/
def valueMacro (R : Rust) (limit : Nat) (ts : List TT) : Option (Value Unit) := base R limit (.toks ts)

end Macro
end SV
