import Verif.Spec.Serde
/-
Specification of reading values from a document of any self-describing format.
-/
namespace SV

/-- What may stand in a document of a self-describing format, in the serde data model. `bad` is a place where the deserializer reports an error (a message). -/
inductive Doc where
  | unit
  | bool (b : Bool)
  | num (n : Num)
  | float
  | char (c : Char)
  | str (s : Str)
  | bytes (bs : List UInt8)
  | none
  | some (x : Doc)
  | newtype (x : Doc)
  | seq (xs : List Doc)
  | map (es : List (Doc × Doc))
  | enum (name payload : Doc)
  | bad (msg : Str)

/-- `Shows strict d doc`: the deserializer `d` presents the document `doc`, whichever kind of plain data it is asked for. `strict` if it insists that maps and sequences are read to
their end (as JSON does). -/
inductive Shows (strict : Bool) : Der → Doc → Prop
  | unit {d} (h : ∀ a, a.Plain → d.ask a = .unit) : Shows strict d .unit
  | bool {d b} (h : ∀ a, a.Plain → d.ask a = .bool b) : Shows strict d (.bool b)
  | num {d n} (h : ∀ a, a.Plain → d.ask a = .num n) : Shows strict d (.num n)
  | float {d} (h : ∀ a, a.Plain → d.ask a = .float) : Shows strict d .float
  | char {d c} (h : ∀ a, a.Plain → d.ask a = .char c) : Shows strict d (.char c)
  | str {d s} (h : ∀ a, a.Plain → d.ask a = .str s) : Shows strict d (.str s)
  | bytes {d bs} (h : ∀ a, a.Plain → d.ask a = .bytes bs) : Shows strict d (.bytes bs)
  | none {d} (h : ∀ a, a.Plain → d.ask a = .none) : Shows strict d .none
  | some {d e x} (h : ∀ a, a.Plain → d.ask a = .some e) (sub : Shows strict e x) : Shows strict d (.some x)
  | newtype {d e x} (h : ∀ a, a.Plain → d.ask a = .newtype e) (sub : Shows strict e x) : Shows strict d (.newtype x)
  | seq {d xs ds} (h : ∀ a, a.Plain → d.ask a = .seq strict ds) (len : ds.length = xs.length)
      (sub : ∀ (i : Nat) (e : Der) (x : Doc), ds[i]? = some e → xs[i]? = some x → Shows strict e x) : Shows strict d (.seq xs)
  | map {d xs ds} (h : ∀ a, a.Plain → d.ask a = .map strict ds) (len : ds.length = xs.length)
      (key : ∀ (i : Nat) (e : Der × Der) (x : Doc × Doc), ds[i]? = some e → xs[i]? = some x → Shows strict e.1 x.1)
      (sub : ∀ (i : Nat) (e : Der × Der) (x : Doc × Doc), ds[i]? = some e → xs[i]? = some x → Shows strict e.2 x.2) : Shows strict d (.map xs)
  | enum {d e f access x y} (h : ∀ a, a.Plain → d.ask a = .enum e f access) (name : Shows strict e x) (sub : Shows strict f y) : Shows strict d (.enum x y)
  | bad {d msg} (h : ∀ a, a.Plain → d.ask a = .error (.foreign msg)) : Shows strict d (.bad msg)

/-- What can be read as a name: strings, characters, and bytes that are UTF-8. -/
inductive DocName : Doc → Str → Prop
  | str (s) : DocName (.str s) s
  | char (c) : DocName (.char c) [c]
  | bytes {bs s} (h : utf8Bytes s = bs) : DocName (.bytes bs) s

/-- A list of booleans. -/
def DocBools (x : Doc) (bs : List Bool) : Prop := x = .seq (bs.map .bool)

/-- A map that is taken for a bit sequence: its first key is `__bitvec__values__`. -/
def BitMap (es : List (Doc × Doc)) : Prop := ∃ p, es.head? = some p ∧ DocName p.1 "__bitvec__values__".toList

mutual
/-- `DocValue strict doc v`: reading the document as a `Value` gives `v`. -/
inductive DocValue (strict : Bool) : Doc → Value Unit → Prop
  | bool (b) : DocValue strict (.bool b) (.mk (.primitive (.bool b)) ())
  | num {n p} (h : RepNum n p) : DocValue strict (.num n) (.mk (.primitive p) ())
  | char (c) : DocValue strict (.char c) (.mk (.primitive (.char c)) ())
  | str (s) : DocValue strict (.str s) (.mk (.primitive (.string s)) ())
  | bytes {bs vs} (h : ByteList bs vs) : DocValue strict (.bytes bs) (.mk (.composite (.unnamed vs)) ())
  | unit : DocValue strict .unit (.mk (.composite (.unnamed [])) ())
  | none : DocValue strict .none (.mk (.variant (.mk "None".toList (.unnamed []))) ())
  | some {x v} (h : DocValue strict x v) : DocValue strict (.some x) (.mk (.variant (.mk "Some".toList (.unnamed [v]))) ())
  | newtype {x v} (h : DocValue strict x v) : DocValue strict (.newtype x) v
  | seq {xs vs} (len : xs.length = vs.length) (sub : ∀ (i : Nat) (x : Doc) (v : Value Unit), xs[i]? = some x → vs[i]? = some v → DocValue strict x v) :
      DocValue strict (.seq xs) (.mk (.composite (.unnamed vs)) ())
  | map {es : List (Doc × Doc)} {fs : List (Str × Value Unit)} (bits : ¬ BitMap es) (len : es.length = fs.length)
      (key : ∀ (i : Nat) (e : Doc × Doc) (f : Str × Value Unit), es[i]? = some e → fs[i]? = some f → DocName e.1 f.1)
      (sub : ∀ (i : Nat) (e : Doc × Doc) (f : Str × Value Unit), es[i]? = some e → fs[i]? = some f → DocValue strict e.2 f.2) :
      DocValue strict (.map es) (.mk (.composite (.named fs)) ())
  | bitMap {k x es bs} (key : DocName k "__bitvec__values__".toList) (h : DocBools x bs) (rest : strict = true → es = []) :
      DocValue strict (.map ((k, x) :: es)) (.mk (.bitSequence bs) ())
  | enum {x y n c} (name : DocName x n) (h : DocComposite strict y c) : DocValue strict (.enum x y) (.mk (.variant (.mk n c)) ())
/-- `DocComposite strict doc c`: reading the document as a `Composite` gives `c`. -/
inductive DocComposite (strict : Bool) : Doc → Composite Unit → Prop
  | bytes {bs vs} (h : ByteList bs vs) : DocComposite strict (.bytes bs) (.unnamed vs)
  | unit : DocComposite strict .unit (.unnamed [])
  | newtype {x c} (h : DocComposite strict x c) : DocComposite strict (.newtype x) c
  | seq {xs vs} (len : xs.length = vs.length) (sub : ∀ (i : Nat) (x : Doc) (v : Value Unit), xs[i]? = some x → vs[i]? = some v → DocValue strict x v) :
      DocComposite strict (.seq xs) (.unnamed vs)
  | map {es : List (Doc × Doc)} {fs : List (Str × Value Unit)} (len : es.length = fs.length)
      (key : ∀ (i : Nat) (e : Doc × Doc) (f : Str × Value Unit), es[i]? = some e → fs[i]? = some f → DocName e.1 f.1)
      (sub : ∀ (i : Nat) (e : Doc × Doc) (f : Str × Value Unit), es[i]? = some e → fs[i]? = some f → DocValue strict e.2 f.2) :
      DocComposite strict (.map es) (.named fs)
end

/-- The last entry of a map with the given name has the contents `x`. -/
def DocLast (es : List (Doc × Doc)) (name : Str) (x : Doc) : Prop :=
  ∃ pre k post, es = pre ++ (k, x) :: post ∧ DocName k name ∧ ∀ p ∈ post, ¬ DocName p.1 name

/-- `DocVariant strict doc v`: reading the document as a `Variant` gives `v`. In a map there may be nothing but entries `name` and `values`, each of which can be read; if one is repeated the
last one counts. -/
inductive DocVariant (strict : Bool) : Doc → Variant Unit → Prop
  | enum {x y n c} (name : DocName x n) (h : DocComposite strict y c) : DocVariant strict (.enum x y) (.mk n c)
  | some {x v} (h : DocValue strict x v) : DocVariant strict (.some x) (.mk "Some".toList (.unnamed [v]))
  | none : DocVariant strict .none (.mk "None".toList (.unnamed []))
  | map {es x y n c} (all : ∀ e ∈ es, (DocName e.1 "name".toList ∧ ∃ n, DocName e.2 n) ∨ (DocName e.1 "values".toList ∧ ∃ c, DocComposite strict e.2 c))
      (name : DocLast es "name".toList x) (hn : DocName x n) (values : DocLast es "values".toList y) (hc : DocComposite strict y c) :
      DocVariant strict (.map es) (.mk n c)

/-- `DocPrimitive doc p`: reading the document as a `Primitive` gives `p`. 32 bytes, or a list of 32 numbers from 0 to 255 (held in types of at most 64 bits), are an (unsigned) 256 bit number. -/
inductive DocPrimitive : Doc → Primitive → Prop
  | bool (b) : DocPrimitive (.bool b) (.bool b)
  | num {n p} (h : RepNum n p) : DocPrimitive (.num n) p
  | char (c) : DocPrimitive (.char c) (.char c)
  | str (s) : DocPrimitive (.str s) (.string s)
  | bytes {b : Bytes32} : DocPrimitive (.bytes b.bytes) (.u256 b)
  | seq {b : Bytes32} {xs} (len : xs.length = 32)
      (sub : ∀ (i : Nat) (x : Doc) (y : UInt8), xs[i]? = some x → b.bytes[i]? = some y → ∃ n : Num, x = .num n ∧ n.val = y.toNat ∧ n.ty.bits < 128) :
      DocPrimitive (.seq xs) (.u256 b)

mutual
/-- `DocRefused strict doc`: there is a reason in the document for which it is not read as a `Value`. -/
inductive DocRefused (strict : Bool) : Doc → Prop
  | float : DocRefused strict .float
  | bad {msg} : DocRefused strict (.bad msg)
  | some {x} (h : DocRefused strict x) : DocRefused strict (.some x)
  | newtype {x} (h : DocRefused strict x) : DocRefused strict (.newtype x)
  | seq {xs x} (mem : x ∈ xs) (h : DocRefused strict x) : DocRefused strict (.seq xs)
  | mapKey {es k x} (bits : ¬ BitMap es) (mem : (k, x) ∈ es) (h : ∀ s, ¬ DocName k s) : DocRefused strict (.map es)
  | mapVal {es k x} (bits : ¬ BitMap es) (mem : (k, x) ∈ es) (h : DocRefused strict x) : DocRefused strict (.map es)
  | bits {k x es} (key : DocName k "__bitvec__values__".toList) (h : ∀ bs, ¬ DocBools x bs) : DocRefused strict (.map ((k, x) :: es))
  | bitsRest {k x es} (key : DocName k "__bitvec__values__".toList) (s : strict = true) (h : es ≠ []) : DocRefused strict (.map ((k, x) :: es))
  | enumName {x y} (h : ∀ s, ¬ DocName x s) : DocRefused strict (.enum x y)
  | enum {x y} (h : DocNoComposite strict y) : DocRefused strict (.enum x y)
/-- `DocNoComposite strict doc`: there is a reason in the document for which it is not read as a `Composite`. -/
inductive DocNoComposite (strict : Bool) : Doc → Prop
  | bool {b} : DocNoComposite strict (.bool b)
  | num {n} : DocNoComposite strict (.num n)
  | float : DocNoComposite strict .float
  | char {c} : DocNoComposite strict (.char c)
  | str {s} : DocNoComposite strict (.str s)
  | none : DocNoComposite strict .none
  | some {x} : DocNoComposite strict (.some x)
  | enum {x y} : DocNoComposite strict (.enum x y)
  | bad {msg} : DocNoComposite strict (.bad msg)
  | newtype {x} (h : DocNoComposite strict x) : DocNoComposite strict (.newtype x)
  | seq {xs x} (mem : x ∈ xs) (h : DocRefused strict x) : DocNoComposite strict (.seq xs)
  | mapKey {es k x} (mem : (k, x) ∈ es) (h : ∀ s, ¬ DocName k s) : DocNoComposite strict (.map es)
  | mapVal {es k x} (mem : (k, x) ∈ es) (h : DocRefused strict x) : DocNoComposite strict (.map es)
end

mutual
/-- A deserializer for each document. -/
def Doc.der (strict : Bool) : Doc → Der
  | .unit => .mk fun _ => .unit
  | .bool b => .mk fun _ => .bool b
  | .num n => .mk fun _ => .num n
  | .float => .mk fun _ => .float
  | .char c => .mk fun _ => .char c
  | .str s => .mk fun _ => .str s
  | .bytes bs => .mk fun _ => .bytes bs
  | .none => .mk fun _ => .none
  | .some x => .mk fun _ => .some (x.der strict)
  | .newtype x => .mk fun _ => .newtype (x.der strict)
  | .seq xs => .mk fun _ => .seq strict (docDers strict xs)
  | .map es => .mk fun _ => .map strict (docEntries strict es)
  | .enum x y => .mk fun _ => .enum (x.der strict) (y.der strict) (fun _ => .error (.foreign []))
  | .bad msg => .mk fun _ => .error (.foreign msg)
def docDers (strict : Bool) : List Doc → List Der
  | [] => []
  | x :: xs => x.der strict :: docDers strict xs
def docEntries (strict : Bool) : List (Doc × Doc) → List (Der × Der)
  | [] => []
  | (k, x) :: es => (k.der strict, x.der strict) :: docEntries strict es
end

end SV
