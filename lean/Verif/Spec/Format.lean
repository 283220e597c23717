import Verif.Model.Format
import Verif.Spec.Grammar
import Verif.Spec.Value
/-
Specification vocabulary for the formatter.
-/
namespace SV

variable {T W : Type}

/-- The value contains a 256 bit primitive, at any depth. -/
inductive Has256 : Value T → Prop
  | u256 {b c} : Has256 (.mk (.primitive (.u256 b)) c)
  | i256 {b c} : Has256 (.mk (.primitive (.i256 b)) c)
  | named {fs c p} (hp : p ∈ fs) (h : Has256 p.2) : Has256 (.mk (.composite (.named fs)) c)
  | unnamed {vs c v} (hv : v ∈ vs) (h : Has256 v) : Has256 (.mk (.composite (.unnamed vs)) c)
  | vnamed {n fs c p} (hp : p ∈ fs) (h : Has256 p.2) : Has256 (.mk (.variant (.mk n (.named fs))) c)
  | vunnamed {n vs c v} (hv : v ∈ vs) (h : Has256 v) : Has256 (.mk (.variant (.mk n (.unnamed vs))) c)

/-- The variant names that the textual language can express: everything but identifiers that begin with
`true` or `false`. -/
def NameOk (u : Uni) (n : Str) : Prop :=
  Ident u n → ¬ ['t', 'r', 'u', 'e'] <+: n ∧ ¬ ['f', 'a', 'l', 's', 'e'] <+: n

/-- The primitives that the textual language can express. -/
def PrimOk : Primitive → Prop
  | .u256 _ => False
  | .i256 _ => False
  | .i128 n => n.val < 0
  | _ => True

/-- The values that the textual language can express. -/
inductive Printable (u : Uni) : Value T → Prop
  | prim {p c} (h : PrimOk p) : Printable u (.mk (.primitive p) c)
  | bits {b c} : Printable u (.mk (.bitSequence b) c)
  | named {fs c} (h : ∀ p ∈ fs, Printable u p.2) : Printable u (.mk (.composite (.named fs)) c)
  | unnamed {vs c} (h : ∀ v ∈ vs, Printable u v) : Printable u (.mk (.composite (.unnamed vs)) c)
  | vnamed {n fs c} (hn : NameOk u n) (h : ∀ p ∈ fs, Printable u p.2) :
      Printable u (.mk (.variant (.mk n (.named fs))) c)
  | vunnamed {n vs c} (hn : NameOk u n) (h : ∀ v ∈ vs, Printable u v) :
      Printable u (.mk (.variant (.mk n (.unnamed vs))) c)

/-- Perform writes one after the other, stopping at the first that fails. -/
def runWrites (wr : Writer W) : List Str → W → Bool × W
  | [], w => (true, w)
  | s :: ss, w => match wr s w with
    | (true, w') => runWrites wr ss w'
    | (false, w') => (false, w')

/-- A writer that never fails and records what it was asked to write. -/
def logWriter : Writer (List Str) := fun s log => (true, log ++ [s])

/-- Where a scan of some text is: outside of any quotes, inside of `"`, inside of `'`; or right after a backslash
in one of these. -/
inductive Quote where
  | out
  | dq
  | dqEsc
  | sq
  | sqEsc
  deriving DecidableEq

/-- How a character moves the scan. -/
def Quote.step : Quote → Char → Quote
  | .out, c => if c = '"' then .dq else if c = '\'' then .sq else .out
  | .dq, c => if c = '\\' then .dqEsc else if c = '"' then .out else .dq
  | .dqEsc, _ => .dq
  | .sq, c => if c = '\\' then .sqEsc else if c = '\'' then .out else .sq
  | .sqEsc, _ => .sq

/-- All characters that are outside of quotes satisfy `p`. -/
def OutsideAll (p : Char → Prop) : Quote → Str → Prop
  | _, [] => True
  | q, c :: r => (q = .out → p c) ∧ OutsideAll p (q.step c) r

/-- Whether the text begins with a closing bracket. -/
def ClosesFirst : Str → Prop
  | c :: _ => c = ')' ∨ c = '}'
  | [] => False

/-- The nesting depth after a character outside of quotes. -/
def depthStep (d : Nat) (c : Char) : Nat :=
  if c = '(' ∨ c = '{' then d + 1 else if c = ')' ∨ c = '}' then d - 1 else d

/-- `n` copies of a string. -/
def rep (s : Str) : Nat → Str
  | 0 => []
  | n + 1 => s ++ rep s n

/-- Scan a text, and require `P d c rest` at each character `c` outside of quotes, where `d` brackets are open
before it and `rest` follows it. -/
def ScanAll (P : Nat → Char → Str → Prop) : Quote → Nat → Str → Prop
  | _, _, [] => True
  | q, d, c :: r => (q = .out → P d c r) ∧ ScanAll P (q.step c) (if q = .out then depthStep d c else d) r

/-- The next line begins with `lead` and then `ind` repeated as many times as brackets are open there (not counting
one that is closed right at the beginning of the line). -/
def LineIndented (lead ind : Str) (d : Nat) (c : Char) (r : Str) : Prop :=
  c = '\n' → ∃ k rest, r = lead ++ rep ind k ++ rest ∧ (ClosesFirst rest → d = k + 1) ∧ (¬ ClosesFirst rest → d = k)

/-- There is a line break after each comma, and after each opening bracket that is not closed at once. -/
def LineBroken (_ : Nat) (c : Char) (r : Str) : Prop :=
  (c = ',' → ∃ r', r = '\n' :: r') ∧ (c = '(' ∨ c = '{' → ClosesFirst r ∨ ∃ r', r = '\n' :: r')

/-- Options of a formatter independent of the type of writer: custom formatters and the context printer are given
by the writes that they do (a formatter accepts a value if there is an answer). -/
structure FmtOpts (T : Type) where
  style : Style
  indentBy : Str
  leadingIndent : Str
  formatters : List (Value T → Option (List Str))
  context : Option (T → List Str)

/-- The builder with these options, for any writer. -/
def FmtOpts.builder (o : FmtOpts T) (wr : Writer W) : Builder T W where
  wr := wr
  style := o.style
  customFormatters := o.formatters.map fun f v w => match f v with
    | none => (none, w)
    | some ws => (some (runWrites wr ws w).1, (runWrites wr ws w).2)
  indentBy := o.indentBy
  leadingIndent := o.leadingIndent
  printContext := o.context.map fun p c w => runWrites wr (p c) w

/-- What goes before a value: its context in angle brackets and a space, if contexts are to be printed. -/
def FmtOpts.before (o : FmtOpts T) (c : T) : Str := match o.context with
  | none => []
  | some p => '<' :: (p c).flatten ++ ['>', ' ']

/-- The text which the first of the custom formatters that accepts a value writes for it. -/
def FmtOpts.custom (o : FmtOpts T) (v : Value T) : Option Str := (o.formatters.findSome? (· v)).map List.flatten

/-- The value has, at any depth, a 256 bit number that is not part of anything which a custom formatter writes. -/
inductive Exposed256 (o : FmtOpts T) : Value T → Prop
  | here {p c} (hc : o.custom (.mk (.primitive p) c) = none) (hp : ∃ b, p = .u256 b ∨ p = .i256 b) : Exposed256 o (.mk (.primitive p) c)
  | part {v f w} (hc : o.custom v = none) (hf : v.fields? = some f) (hw : w ∈ f.vals) (h : Exposed256 o w) : Exposed256 o v

/-- After a variant name, and after the colon of a field: a space, if not in compact style. -/
def FmtOpts.space (o : FmtOpts T) : Str := match o.style with
  | .compact => []
  | .normal => [' ']
  | .pretty _ => [' ']

/-- In pretty style a new line, and nothing else. With `d` brackets open. -/
def FmtOpts.line (o : FmtOpts T) (d : Nat) : Str := match o.style with
  | .compact => []
  | .normal => []
  | .pretty n => '\n' :: o.leadingIndent ++ rep o.indentBy (n + d)

/-- In pretty style a new line, in normal style a space. -/
def FmtOpts.gap (o : FmtOpts T) (d : Nat) : Str := match o.style with
  | .compact => []
  | .normal => [' ']
  | .pretty n => '\n' :: o.leadingIndent ++ rep o.indentBy (n + d)

/-- Characters that have an escape code are escaped, and no others. -/
inductive Escaped : Str → Str → Prop
  | nil : Escaped [] []
  | esc {e c s t} (he : Escape e c) (h : Escaped s t) : Escaped (c :: s) ('\\' :: e :: t)
  | plain {c s t} (hc : ∀ e, ¬ Escape e c) (h : Escaped s t) : Escaped (c :: s) (c :: t)

/-- Names as they are printed: identifiers as they are, all others as a string literal, after `v` for variants. -/
inductive ShownName (u : Uni) (v : Str) : Str → Str → Prop
  | ident {n} (h : Ident u n) : ShownName u v n n
  | quoted {n t} (h : ¬ Ident u n) (ht : Escaped n t) : ShownName u v n (v ++ '"' :: t ++ ['"'])

/-- What is shown. -/
inductive ShowCat (T : Type) where
  | val (v : Value T)
  | dflt (d : ValueDef T)
  | comp (c : Composite T)
  | fields (fs : List (Str × Value T))
  | vals (vs : List (Value T))

/-- `Shown u o d (.val v) s`: `s` is the text of `v`, with `d` brackets open. Each nested value for which the custom formatters have
an answer is written as that answer, and all others in default notation; the context goes before each value. There is no text for 256 bit numbers. -/
inductive Shown (u : Uni) (o : FmtOpts T) : Nat → ShowCat T → Str → Prop
  | custom {k d c s} (h : o.custom (.mk d c) = some s) : Shown u o k (.val (.mk d c)) (o.before c ++ s)
  | default {k d c s} (hn : o.custom (.mk d c) = none) (h : Shown u o k (.dflt d) s) : Shown u o k (.val (.mk d c)) (o.before c ++ s)
  | true_ {k} : Shown u o k (.dflt (.primitive (.bool true))) "true".toList
  | false_ {k} : Shown u o k (.dflt (.primitive (.bool false))) "false".toList
  | char {k c t} (h : Escaped [c] t) : Shown u o k (.dflt (.primitive (.char c))) ('\'' :: t ++ ['\''])
  | string {k s t} (h : Escaped s t) : Shown u o k (.dflt (.primitive (.string s))) ('"' :: t ++ ['"'])
  | unsigned {k n} : Shown u o k (.dflt (.primitive (.u128 n))) (Nat.toDigits 10 n.val)
  | nonneg {k} {n : I128} {m : Nat} (h : n.val = m) : Shown u o k (.dflt (.primitive (.i128 n))) (Nat.toDigits 10 m)
  | negative {k} {n : I128} {m : Nat} (h : n.val = -(m : Int)) (hm : 0 < m) : Shown u o k (.dflt (.primitive (.i128 n))) ('-' :: Nat.toDigits 10 m)
  | bits {k bs} : Shown u o k (.dflt (.bitSequence bs)) ('<' :: bitChars bs ++ ['>'])
  | composite {k c s} (h : Shown u o k (.comp c) s) : Shown u o k (.dflt (.composite c)) s
  | variant {k n c s t} (hn : ShownName u ['v'] n s) (h : Shown u o k (.comp c) t) : Shown u o k (.dflt (.variant (.mk n c))) (s ++ o.space ++ t)
  | namedEmpty {k} : Shown u o k (.comp (.named [])) "{}".toList
  | unnamedEmpty {k} : Shown u o k (.comp (.unnamed [])) "()".toList
  | named {k fs s} (h : Shown u o (k + 1) (.fields fs) s) : Shown u o k (.comp (.named fs)) ('{' :: o.gap (k + 1) ++ s ++ o.gap k ++ ['}'])
  | unnamed {k vs s} (h : Shown u o (k + 1) (.vals vs) s) : Shown u o k (.comp (.unnamed vs)) ('(' :: o.line (k + 1) ++ s ++ o.line k ++ [')'])
  | field1 {k n v s t} (hn : ShownName u [] n s) (h : Shown u o k (.val v) t) : Shown u o k (.fields [(n, v)]) (s ++ ':' :: o.space ++ t)
  | fieldCons {k n v s t fs r} (hn : ShownName u [] n s) (h : Shown u o k (.val v) t) (hs : Shown u o k (.fields fs) r) :
      Shown u o k (.fields ((n, v) :: fs)) ((s ++ ':' :: o.space ++ t) ++ ',' :: o.gap k ++ r)
  | val1 {k v s} (h : Shown u o k (.val v) s) : Shown u o k (.vals [v]) s
  | valCons {k v s vs t} (h : Shown u o k (.val v) s) (hs : Shown u o k (.vals vs) t) :
      Shown u o k (.vals (v :: vs)) (s ++ ',' :: o.gap k ++ t)

end SV
