import Verif.Model.Buffer
import Verif.Spec.Doc
import Verif.Spec.Value
/-
Specification of serde's buffer.
-/
namespace SV

variable {T : Type}

mutual
/-- The document that a buffer is a copy of. -/
def Content.doc : Content → Doc
  | .bool b => .bool b
  | .num n => .num n
  | .float => .float
  | .char c => .char c
  | .str s => .str s
  | .bytes bs => .bytes bs
  | .unit => .unit
  | .none => .none
  | .some c => .some c.doc
  | .newtype c => .newtype c.doc
  | .seq cs => .seq (contentDocs cs)
  | .map es => .map (contentPairs es)
def contentDocs : List Content → List Doc
  | [] => []
  | c :: cs => c.doc :: contentDocs cs
def contentPairs : List (Content × Content) → List (Doc × Doc)
  | [] => []
  | (k, c) :: es => (k.doc, c.doc) :: contentPairs es
end

/-- The parts of a document, at any depth. -/
inductive Doc.Has : Doc → Doc → Prop
  | here (x) : Doc.Has x x
  | some {x y} (h : Doc.Has x y) : Doc.Has (.some x) y
  | newtype {x y} (h : Doc.Has x y) : Doc.Has (.newtype x) y
  | seq {xs x y} (mem : x ∈ xs) (h : Doc.Has x y) : Doc.Has (.seq xs) y
  | key {es e y} (mem : e ∈ es) (h : Doc.Has e.1 y) : Doc.Has (.map es) y
  | val {es e y} (mem : e ∈ es) (h : Doc.Has e.2 y) : Doc.Has (.map es) y

/-- What the buffer does not hold: numbers in 128 bit types, enums, and places where the deserializer reports an error. -/
inductive Doc.Unheld : Doc → Prop
  | num {n : Num} (h : n.ty.bits = 128) : Doc.Unheld (.num n)
  | enum {x y} : Doc.Unheld (.enum x y)
  | bad {msg} : Doc.Unheld (.bad msg)

/-- No map of the document has a character for a key. -/
def NoCharKeys (doc : Doc) : Prop := ∀ es k x, doc.Has (.map es) → (k, x) ∈ es → ∀ c, k ≠ .char c

/-- The parts of a value, at any depth. -/
inductive Value.Has : Value T → Value T → Prop
  | here (v) : Value.Has v v
  | child {v u w} (mem : u ∈ v.children) (h : Value.Has u w) : Value.Has v w

/-- What the buffer does not hold: numbers of up to 128 bits and variants. -/
inductive Value.Unheld : Value T → Prop
  | u128 {n c} : Value.Unheld (.mk (.primitive (.u128 n)) c)
  | i128 {n c} : Value.Unheld (.mk (.primitive (.i128 n)) c)
  | variant {x c} : Value.Unheld (.mk (.variant x) c)

/-- `Copies v c`: the buffer `c` is a copy of the value `v`. -/
inductive Copies : Value T → Content → Prop
  | bool {b c} : Copies (.mk (.primitive (.bool b)) c) (.bool b)
  | char {x c} : Copies (.mk (.primitive (.char x)) c) (.char x)
  | string {s c} : Copies (.mk (.primitive (.string s)) c) (.str s)
  | u256 {b c} : Copies (.mk (.primitive (.u256 b)) c) (.bytes b.bytes)
  | i256 {b c} : Copies (.mk (.primitive (.i256 b)) c) (.bytes b.bytes)
  | bits {b c} : Copies (.mk (.bitSequence b) c) (.map [(.str "__bitvec__values__".toList, .seq (b.map .bool))])
  | unnamed {vs : List (Value T)} {cs c} (len : vs.length = cs.length)
      (sub : ∀ (i : Nat) (x : Value T) (y : Content), vs[i]? = some x → cs[i]? = some y → Copies x y) : Copies (.mk (.composite (.unnamed vs)) c) (.seq cs)
  | named {fs : List (Str × Value T)} {es : List (Content × Content)} {c} (names : es.map (fun e => e.1) = fs.map (fun f => .str f.1))
      (sub : ∀ (i : Nat) (x : Str × Value T) (y : Content × Content), fs[i]? = some x → es[i]? = some y → Copies x.2 y.2) :
      Copies (.mk (.composite (.named fs)) c) (.map es)

end SV
