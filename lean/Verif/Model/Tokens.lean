import Verif.Model.Basic
/-
Dependency model: the parts of the `yap` crate (0.12) used by from_string.rs. `yap`'s source is not
available here; the behaviour is taken from its documentation.
-/
namespace SV

/-- `yap::types::StrTokens` (dependency model): what remains to be consumed and the byte offset of it
in the whole input. `location()`/`set_location()` save and restore this state. (from_string.rs:61) -/
structure Toks where
  rest : Str
  off : Nat
  deriving DecidableEq

/-- `s.into_tokens()` (dependency model; from_string.rs:61). -/
def Toks.new (s : Str) : Toks := ⟨s, 0⟩

/-- `Tokens::next` (dependency model). (from_string.rs:240, 402, 410, 489, 562) -/
def Toks.next : Toks → Option Char × Toks
  | ⟨[], o⟩ => (none, ⟨[], o⟩)
  | ⟨c :: r, o⟩ => (some c, ⟨r, o + c.utf8Size⟩)

/-- `n` calls of `Tokens::next`, as in the loop of from_string.rs:239-241. -/
def Toks.nextN : Nat → Toks → Toks
  | 0, t => t
  | n + 1, t => Toks.nextN n t.next.2

/-- `Tokens::token` (dependency model): consume the token iff it is the expected one. (from_string.rs:290, 320, 368, 399, 431, 481, 595) -/
def Toks.token (c : Char) : Toks → Bool × Toks
  | ⟨[], o⟩ => (false, ⟨[], o⟩)
  | ⟨d :: r, o⟩ => if d = c then (true, ⟨r, o + d.utf8Size⟩) else (false, ⟨d :: r, o⟩)

/-- `Tokens::tokens` (dependency model): consume all the tokens iff they are the ones expected. (from_string.rs:387, 389) -/
def Toks.tokens (cs : List Char) (t : Toks) : Bool × Toks :=
  go cs t
where
  /-- Match token by token, going back to the start on a mismatch. -/
  go : List Char → Toks → Bool × Toks
    | [], u => (true, u)
    | c :: cs, u => match u.token c with
      | (true, u') => go cs u'
      | (false, _) => (false, t)

/-- `Tokens::take_while` iterated to its end, with a stateful predicate (dependency model): the first token that fails the predicate is not
consumed. (from_string.rs:439) -/
def takeWhileS {S : Type} (p : S → Char → Bool × S) : S → Str → Nat → Str × S × Toks
  | s, [], o => ([], s, ⟨[], o⟩)
  | s, c :: r, o => match p s c with
    | (true, s') =>
      let (taken, s'', t) := takeWhileS p s' r (o + c.utf8Size)
      (c :: taken, s'', t)
    | (false, s') => ([], s', ⟨c :: r, o⟩)

/-- `Tokens::take_while` iterated to its end, with a pure predicate (dependency model). (from_string.rs:371) -/
def takeWhileT (p : Char → Bool) : Str → Nat → Str × Toks
  | [], o => ([], ⟨[], o⟩)
  | c :: r, o =>
    if p c then
      let (taken, t) := takeWhileT p r (o + c.utf8Size)
      (c :: taken, t)
    else ([], ⟨c :: r, o⟩)

/-- `Tokens::take_while` on a state. (from_string.rs:371) -/
def Toks.takeWhile (p : Char → Bool) (t : Toks) : Str × Toks := takeWhileT p t.rest t.off

/-- `Tokens::skip_while` (dependency model): returns the number of tokens skipped. (from_string.rs:577, 580, 589) -/
def Toks.skipWhile (p : Char → Bool) (t : Toks) : Nat × Toks :=
  ((t.takeWhile p).1.length, (t.takeWhile p).2)

/-- `Tokens::slice(start, end)` collected into a string (dependency model): the characters from `start`
up to `end`, both being locations of the same token stream with `start` not after `end`. (from_string.rs:583) -/
def Toks.slice (start stop : Toks) : Str :=
  start.rest.take (start.rest.length - stop.rest.length)

/-- The part of `Tokens::sep_by_err(..).collect()` after the first item (dependency model; used at
from_string.rs:300-305, 330-332): a separator, then an item, and so on. If the
separator does not match, iteration ends at the location before the separator was tried. If the item fails, the error is yielded and
the location is put back before the separator. `fuel` bounds the number of items; `none` means it
ran out (proved impossible for the callers). -/
def sepRest {α ε : Type} (item : Toks → Option (Except ε α × Toks)) (sep : Toks → Bool × Toks) :
    Nat → List α → Toks → Option (Except ε (List α) × Toks)
  | 0, _, _ => none
  | fuel + 1, acc, t => match sep t with
    | (false, _) => some (.ok acc, t)
    | (true, t1) => match item t1 with
      | none => none
      | some (.error e, _) => some (.error e, t)
      | some (.ok a, t2) => sepRest item sep fuel (acc ++ [a]) t2

/-- `Tokens::sep_by_err(..).collect::<Result<Vec<_>, _>>()` (dependency model; used at
from_string.rs:300-305, 330-332). If the first item fails the location is put back before it. -/
def sepByErr {α ε : Type} (item : Toks → Option (Except ε α × Toks)) (sep : Toks → Bool × Toks)
    (t : Toks) : Option (Except ε (List α) × Toks) :=
  match item t with
  | none => none
  | some (.error e, _) => some (.error e, t)
  | some (.ok a, t1) => sepRest item sep (t1.rest.length + 1) [a] t1

end SV
