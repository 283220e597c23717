import Verif.Model.SerCalls
import Verif.Spec.Serde
/-
What a history of calls of a map serializer stands for.
-/
namespace SV

/-- The calls without `serialize_entry`: an entry is a key, and a value if the key was fine. -/
inductive MapEvent where
  /-- a key that stands for a name -/
  | key (name : Str)
  /-- a key that does not -/
  | badKey
  /-- a value that could be serialized -/
  | value (v : Value Unit)
  /-- a value that could not -/
  | badValue

/-- The name that is waiting for a value after some events (the latest one first): that of the latest good key, unless there was a value (good or bad) since. -/
def waiting : List MapEvent → Option Str
  | [] => none
  | .key name :: _ => some name
  | .badKey :: past => waiting past
  | .value _ :: _ => none
  | .badValue :: _ => none

/-- The entry that the event at position `i` makes. -/
def entryAt (h : List MapEvent) (i : Nat) : Option (Str × Value Unit) :=
  match h[i]? with
  | some (.value v) => (waiting (h.take i).reverse).map (fun name => (name, v))
  | _ => none

/-- The event at position `i` is a value without a name waiting for it. -/
def Unasked (h : List MapEvent) (i : Nat) : Prop := ((∃ v, h[i]? = some (.value v)) ∨ h[i]? = some .badValue) ∧ waiting (h.take i).reverse = none

/-- What a key is worth: the name for strings and characters. -/
inductive KeyEvent : Inner → MapEvent → Prop
  | good {v s} (h : KeyName v s) : KeyEvent (.ok v) (.key s)
  | bad {v} (h : ∀ s, ¬ KeyName v s) : KeyEvent (.ok v) .badKey
  | error {e} : KeyEvent (.error e) .badKey

/-- What a value is worth. -/
inductive ValueEvent : Inner → MapEvent → Prop
  | good {v} : ValueEvent (.ok v) (.value v)
  | error {e} : ValueEvent (.error e) .badValue

/-- The events of calls. -/
inductive Events : List MapCall → List MapEvent → Prop
  | nil : Events [] []
  | key {x e cs es} (h : KeyEvent x e) (hs : Events cs es) : Events (.key x :: cs) (e :: es)
  | value {x e cs es} (h : ValueEvent x e) (hs : Events cs es) : Events (.value x :: cs) (e :: es)
  | entry {k x s e cs es} (hk : KeyEvent k (.key s)) (h : ValueEvent x e) (hs : Events cs es) : Events (.entry k x :: cs) (.key s :: e :: es)
  | badEntry {k x cs es} (hk : KeyEvent k .badKey) (hs : Events cs es) : Events (.entry k x :: cs) (.badKey :: es)

end SV
