import Verif.Model.Typed
import Verif.Spec.Value
/-
Specification vocabulary for serde: which value represents which data, what comes back, self-describing formats.
-/
namespace SV

variable {T : Type}

/-- Number of bits of an integer type. -/
def NumTy.bits : NumTy → Nat
  | .u8 | .i8 => 8
  | .u16 | .i16 => 16
  | .u32 | .i32 => 32
  | .u64 | .i64 => 64
  | .u128 | .i128 => 128

/-- Is the integer type signed? -/
def NumTy.signed : NumTy → Bool
  | .u8 | .u16 | .u32 | .u64 | .u128 => false
  | .i8 | .i16 | .i32 | .i64 | .i128 => true

/-- The number `n` can be represented in the type `t`: the usual ranges `0 .. 2^bits` and `-2^(bits-1) .. 2^(bits-1)`. -/
def NumTy.Holds (t : NumTy) (n : Int) : Prop :=
  if t.signed then -(2 ^ (t.bits - 1)) ≤ n ∧ n < 2 ^ (t.bits - 1) else 0 ≤ n ∧ n < 2 ^ t.bits

/-- The number in a value that holds a `U128` or an `I128`. -/
def Value.number? : Value T → Option Int
  | .mk (.primitive (.u128 n)) _ => some n.val
  | .mk (.primitive (.i128 n)) _ => some n.val
  | _ => none

/-- `RepNum n p`: the primitive `p` is the number `n`, signed if the type of `n` is. -/
inductive RepNum (n : Num) : Primitive → Prop
  | unsigned {u : U128} (s : n.ty.signed = false) (same : (u.val : Int) = n.val) : RepNum n (.u128 u)
  | signed {i : I128} (s : n.ty.signed = true) (same : i.val = n.val) : RepNum n (.i128 i)

/-- The values of bytes: numbers from 0 to 255. -/
def ByteList (bs : List UInt8) (vs : List (Value Unit)) : Prop :=
  vs.length = bs.length ∧ ∀ (i : Nat) (b : UInt8) (v : Value Unit), bs[i]? = some b → vs[i]? = some v → ∃ u : U128, u.val = b.toNat ∧ v = .mk (.primitive (.u128 u)) ()

/-- What a map key stands for: strings, and characters as strings of length one. -/
inductive KeyName : Value Unit → Str → Prop
  | string (s : Str) : KeyName (.mk (.primitive (.string s)) ()) s
  | char (c : Char) : KeyName (.mk (.primitive (.char c)) ()) [c]

/-- `StandsFor s v`: `v` is the value for the data `s` of the serde data model, as documented: numbers and other primitives as they are, unit and unit structs as the empty unnamed
composite, options as variants `None` and `Some`, sequences, tuples and bytes as unnamed composites, structs and maps as named composites, and enum variants as variants. -/
inductive StandsFor : Ser → Value Unit → Prop
  | bool (b) : StandsFor (.bool b) (.mk (.primitive (.bool b)) ())
  | num {n p} (h : RepNum n p) : StandsFor (.num n) (.mk (.primitive p) ())
  | char (c) : StandsFor (.char c) (.mk (.primitive (.char c)) ())
  | str (s) : StandsFor (.str s) (.mk (.primitive (.string s)) ())
  | bytes {bs vs} (h : ByteList bs vs) : StandsFor (.bytes bs) (.mk (.composite (.unnamed vs)) ())
  | none : StandsFor .none (.mk (.variant (.mk ['N', 'o', 'n', 'e'] (.unnamed []))) ())
  | some {x v} (h : StandsFor x v) : StandsFor (.some x) (.mk (.variant (.mk ['S', 'o', 'm', 'e'] (.unnamed [v]))) ())
  | unit : StandsFor .unit (.mk (.composite (.unnamed [])) ())
  | unitStruct : StandsFor .unitStruct (.mk (.composite (.unnamed [])) ())
  | unitVariant (n) : StandsFor (.unitVariant n) (.mk (.variant (.mk n (.unnamed []))) ())
  | newtypeStruct {x v} (h : StandsFor x v) : StandsFor (.newtypeStruct x) (.mk (.composite (.unnamed [v])) ())
  | newtypeVariant {n x v} (h : StandsFor x v) : StandsFor (.newtypeVariant n x) (.mk (.variant (.mk n (.unnamed [v]))) ())
  | seq {xs vs} (len : xs.length = vs.length) (sub : ∀ (i : Nat) (x : Ser) (v : Value Unit), xs[i]? = some x → vs[i]? = some v → StandsFor x v) :
      StandsFor (.seq xs) (.mk (.composite (.unnamed vs)) ())
  | tuple {xs vs} (len : xs.length = vs.length) (sub : ∀ (i : Nat) (x : Ser) (v : Value Unit), xs[i]? = some x → vs[i]? = some v → StandsFor x v) :
      StandsFor (.tuple xs) (.mk (.composite (.unnamed vs)) ())
  | tupleStruct {xs vs} (len : xs.length = vs.length) (sub : ∀ (i : Nat) (x : Ser) (v : Value Unit), xs[i]? = some x → vs[i]? = some v → StandsFor x v) :
      StandsFor (.tupleStruct xs) (.mk (.composite (.unnamed vs)) ())
  | tupleVariant {n xs vs} (len : xs.length = vs.length) (sub : ∀ (i : Nat) (x : Ser) (v : Value Unit), xs[i]? = some x → vs[i]? = some v → StandsFor x v) :
      StandsFor (.tupleVariant n xs) (.mk (.variant (.mk n (.unnamed vs))) ())
  | map {es : List (Ser × Ser)} {fs : List (Str × Value Unit)} (len : es.length = fs.length)
      (keyVal : Nat → Value Unit)
      (key : ∀ (i : Nat) (e : Ser × Ser) (f : Str × Value Unit), es[i]? = some e → fs[i]? = some f → StandsFor e.1 (keyVal i))
      (name : ∀ (i : Nat) (e : Ser × Ser) (f : Str × Value Unit), es[i]? = some e → fs[i]? = some f → KeyName (keyVal i) f.1)
      (sub : ∀ (i : Nat) (e : Ser × Ser) (f : Str × Value Unit), es[i]? = some e → fs[i]? = some f → StandsFor e.2 f.2) :
      StandsFor (.map es) (.mk (.composite (.named fs)) ())
  | struct {es : List (Str × Ser)} {fs : List (Str × Value Unit)} (names : es.map (fun p => p.1) = fs.map (fun p => p.1))
      (sub : ∀ (i : Nat) (e : Str × Ser) (f : Str × Value Unit), es[i]? = some e → fs[i]? = some f → StandsFor e.2 f.2) :
      StandsFor (.struct es) (.mk (.composite (.named fs)) ())
  | structVariant {n} {es : List (Str × Ser)} {fs : List (Str × Value Unit)} (names : es.map (fun p => p.1) = fs.map (fun p => p.1))
      (sub : ∀ (i : Nat) (e : Str × Ser) (f : Str × Value Unit), es[i]? = some e → fs[i]? = some f → StandsFor e.2 f.2) :
      StandsFor (.structVariant n es) (.mk (.variant (.mk n (.named fs))) ())

/-- `Rejected s e`: there is a reason `e` in `s` for which it cannot be a value: a floating point number, an implementation that fails by itself, or a map key that is not like a string. -/
inductive Rejected : Ser → SerErr → Prop
  | f32 : Rejected .f32 .floats
  | f64 : Rejected .f64 .floats
  | fail (msg) : Rejected (.fail msg) (.custom msg)
  | key {es k x v} (mem : (k, x) ∈ es) (rep : StandsFor k v) (bad : ∀ s, ¬ KeyName v s) : Rejected (.map es) .mapKey
  | some {x e} (h : Rejected x e) : Rejected (.some x) e
  | newtypeStruct {x e} (h : Rejected x e) : Rejected (.newtypeStruct x) e
  | newtypeVariant {n x e} (h : Rejected x e) : Rejected (.newtypeVariant n x) e
  | seq {xs x e} (mem : x ∈ xs) (h : Rejected x e) : Rejected (.seq xs) e
  | tuple {xs x e} (mem : x ∈ xs) (h : Rejected x e) : Rejected (.tuple xs) e
  | tupleStruct {xs x e} (mem : x ∈ xs) (h : Rejected x e) : Rejected (.tupleStruct xs) e
  | tupleVariant {n xs x e} (mem : x ∈ xs) (h : Rejected x e) : Rejected (.tupleVariant n xs) e
  | mapKey {es k x e} (mem : (k, x) ∈ es) (h : Rejected k e) : Rejected (.map es) e
  | mapVal {es k x e} (mem : (k, x) ∈ es) (h : Rejected x e) : Rejected (.map es) e
  | struct {es k x e} (mem : (k, x) ∈ es) (h : Rejected x e) : Rejected (.struct es) e
  | structVariant {n es k x e} (mem : (k, x) ∈ es) (h : Rejected x e) : Rejected (.structVariant n es) e

/-- The values that are all booleans, as bits. -/
def BoolList (vs : List (Value T)) (bs : List Bool) : Prop :=
  vs.length = bs.length ∧ ∀ (i : Nat) (v : Value T) (b : Bool), vs[i]? = some v → bs[i]? = some b → ∃ c, v = .mk (.primitive (.bool b)) c

/-- `Back v w`: reading the value `v` as a value gives `w`. The same again without contexts, but 256 bit numbers become lists of 32 numbers, and a named composite whose first field
is called `__bitvec__values__` is taken for a bit sequence (and has to have booleans in that field). -/
inductive Back : Value T → Value Unit → Prop
  | prim {p c} (h : ∀ b, p ≠ .u256 b ∧ p ≠ .i256 b) : Back (.mk (.primitive p) c) (.mk (.primitive p) ())
  | u256 {b : Bytes32} {c vs} (h : ByteList b.bytes vs) : Back (.mk (.primitive (.u256 b)) c) (.mk (.composite (.unnamed vs)) ())
  | i256 {b : Bytes32} {c vs} (h : ByteList b.bytes vs) : Back (.mk (.primitive (.i256 b)) c) (.mk (.composite (.unnamed vs)) ())
  | bits {b c} : Back (.mk (.bitSequence b) c) (.mk (.bitSequence b) ())
  | named {fs : List (Str × Value T)} {gs c} (first : ∀ p, fs.head? = some p → p.1 ≠ "__bitvec__values__".toList) (names : fs.map (fun p => p.1) = gs.map (fun p => p.1))
      (sub : ∀ (i : Nat) (x : Str × Value T) (y : Str × Value Unit), fs[i]? = some x → gs[i]? = some y → Back x.2 y.2) :
      Back (.mk (.composite (.named fs)) c) (.mk (.composite (.named gs)) ())
  | bitsLike {x : Value T} {fs : List (Str × Value T)} {f bs c} (fields : x.fields? = some f) (bools : BoolList f.vals bs) :
      Back (.mk (.composite (.named (("__bitvec__values__".toList, x) :: fs))) c) (.mk (.bitSequence bs) ())
  | unnamed {vs : List (Value T)} {ws c} (len : vs.length = ws.length)
      (sub : ∀ (i : Nat) (x : Value T) (y : Value Unit), vs[i]? = some x → ws[i]? = some y → Back x y) :
      Back (.mk (.composite (.unnamed vs)) c) (.mk (.composite (.unnamed ws)) ())
  | variantNamed {n} {fs : List (Str × Value T)} {gs c} (names : fs.map (fun p => p.1) = gs.map (fun p => p.1))
      (sub : ∀ (i : Nat) (x : Str × Value T) (y : Str × Value Unit), fs[i]? = some x → gs[i]? = some y → Back x.2 y.2) :
      Back (.mk (.variant (.mk n (.named fs))) c) (.mk (.variant (.mk n (.named gs))) ())
  | variantUnnamed {n} {vs : List (Value T)} {ws c} (len : vs.length = ws.length)
      (sub : ∀ (i : Nat) (x : Value T) (y : Value Unit), vs[i]? = some x → ws[i]? = some y → Back x y) :
      Back (.mk (.variant (.mk n (.unnamed vs))) c) (.mk (.variant (.mk n (.unnamed ws))) ())

/-- Values that are read back as they are: no 256 bit numbers, and no named composite starting with a field `__bitvec__values__`, except for fields of variants. -/
inductive SerdeSafe : Value T → Prop
  | prim {p c} (h : ∀ b, p ≠ .u256 b ∧ p ≠ .i256 b) : SerdeSafe (.mk (.primitive p) c)
  | bits {b c} : SerdeSafe (.mk (.bitSequence b) c)
  | named {fs : List (Str × Value T)} {c} (first : ∀ p, fs.head? = some p → p.1 ≠ "__bitvec__values__".toList) (sub : ∀ p ∈ fs, SerdeSafe p.2) :
      SerdeSafe (.mk (.composite (.named fs)) c)
  | unnamed {vs : List (Value T)} {c} (sub : ∀ v ∈ vs, SerdeSafe v) : SerdeSafe (.mk (.composite (.unnamed vs)) c)
  | variantNamed {n} {fs : List (Str × Value T)} {c} (sub : ∀ p ∈ fs, SerdeSafe p.2) : SerdeSafe (.mk (.variant (.mk n (.named fs))) c)
  | variantUnnamed {n} {vs : List (Value T)} {c} (sub : ∀ v ∈ vs, SerdeSafe v) : SerdeSafe (.mk (.variant (.mk n (.unnamed vs))) c)

/-- `Plain v w`: `w` is the value that `v` serializes to: a variant becomes the named composite `{ name, values }`, a bit sequence becomes the named composite
`{ __bitvec__values__: (true, false, ..) }`, a 256 bit number a list of 32 numbers; all else is as it was, without contexts. -/
inductive Flat : Value T → Value Unit → Prop
  | prim {p c} (h : ∀ b, p ≠ .u256 b ∧ p ≠ .i256 b) : Flat (.mk (.primitive p) c) (.mk (.primitive p) ())
  | u256 {b : Bytes32} {c vs} (h : ByteList b.bytes vs) : Flat (.mk (.primitive (.u256 b)) c) (.mk (.composite (.unnamed vs)) ())
  | i256 {b : Bytes32} {c vs} (h : ByteList b.bytes vs) : Flat (.mk (.primitive (.i256 b)) c) (.mk (.composite (.unnamed vs)) ())
  | bits {b : List Bool} {c vs} (h : BoolList vs b) :
      Flat (.mk (.bitSequence b) c) (.mk (.composite (.named [("__bitvec__values__".toList, .mk (.composite (.unnamed vs)) ())])) ())
  | named {fs : List (Str × Value T)} {gs c} (names : fs.map (fun p => p.1) = gs.map (fun p => p.1))
      (sub : ∀ (i : Nat) (x : Str × Value T) (y : Str × Value Unit), fs[i]? = some x → gs[i]? = some y → Flat x.2 y.2) :
      Flat (.mk (.composite (.named fs)) c) (.mk (.composite (.named gs)) ())
  | unnamed {vs : List (Value T)} {ws c} (len : vs.length = ws.length)
      (sub : ∀ (i : Nat) (x : Value T) (y : Value Unit), vs[i]? = some x → ws[i]? = some y → Flat x y) :
      Flat (.mk (.composite (.unnamed vs)) c) (.mk (.composite (.unnamed ws)) ())
  | variant {n} {f : Composite T} {w c d} (h : Flat (.mk (.composite f) d) w) :
      Flat (.mk (.variant (.mk n f)) c)
        (.mk (.composite (.named [("name".toList, .mk (.primitive (.string n)) ()), ("values".toList, w)])) ())

end SV

namespace SV

variable {T : Type}

/-! ### Formats -/

/-- The methods of a deserializer that ask for plain data: not those for options, newtypes, enums, tuples, units and bytes. -/
def Hint.Plain : Hint → Prop
  | .any | .bool | .num _ | .char | .str | .seq | .map | .struct | .ident | .ignored => True
  | _ => False

/-- `Plays d s`: the deserializer `d` plays back what was serialized as `s` (with the calls that values make), as a self-describing format like JSON does. It may play back a number in another integer type, a
character as a string, a tuple as a sequence, and it may or may not insist that sequences and maps are read to their end. -/
inductive Plays : Der → Ser → Prop
  | bool {d b} (h : ∀ a, a.Plain → d.ask a = .bool b) : Plays d (.bool b)
  | num {d n m} (same : m.val = n.val) (h : ∀ a, a.Plain → d.ask a = .num m) : Plays d (.num n)
  | char {d c} (h : ∀ a, a.Plain → d.ask a = .char c) : Plays d (.char c)
  | charStr {d c} (h : ∀ a, a.Plain → d.ask a = .str [c]) : Plays d (.char c)
  | str {d s} (h : ∀ a, a.Plain → d.ask a = .str s) : Plays d (.str s)
  | seq {d xs ds closed} (h : ∀ a, a.Plain → d.ask a = .seq closed ds) (len : ds.length = xs.length)
      (sub : ∀ (i : Nat) (e : Der) (x : Ser), ds[i]? = some e → xs[i]? = some x → Plays e x) : Plays d (.seq xs)
  | tuple {d xs ds closed} (h : ∀ a, a.Plain → d.ask a = .seq closed ds) (len : ds.length = xs.length)
      (sub : ∀ (i : Nat) (e : Der) (x : Ser), ds[i]? = some e → xs[i]? = some x → Plays e x) : Plays d (.tuple xs)
  | map {d xs ds closed} (h : ∀ a, a.Plain → d.ask a = .map closed ds) (len : ds.length = xs.length)
      (key : ∀ (i : Nat) (e : Der × Der) (x : Ser × Ser), ds[i]? = some e → xs[i]? = some x → Plays e.1 x.1)
      (sub : ∀ (i : Nat) (e : Der × Der) (x : Ser × Ser), ds[i]? = some e → xs[i]? = some x → Plays e.2 x.2) : Plays d (.map xs)

/-- Values without a named composite (other than fields of a variant) that begins with `__bitvec__values__`. -/
inductive NoBitName : Value T → Prop
  | prim {p c} : NoBitName (.mk (.primitive p) c)
  | bits {b c} : NoBitName (.mk (.bitSequence b) c)
  | named {fs : List (Str × Value T)} {c} (first : ∀ p, fs.head? = some p → p.1 ≠ "__bitvec__values__".toList) (sub : ∀ p ∈ fs, NoBitName p.2) :
      NoBitName (.mk (.composite (.named fs)) c)
  | unnamed {vs : List (Value T)} {c} (sub : ∀ v ∈ vs, NoBitName v) : NoBitName (.mk (.composite (.unnamed vs)) c)
  | variant {n} {f : Composite T} {c d} (h : NoBitName (.mk (.composite f) d)) : NoBitName (.mk (.variant (.mk n f)) c)

/-- A value that is the number `n`. -/
def IsNumber (v : Value Unit) (n : Int) : Prop := v.number? = some n

/-- `Restores v w`: `w` is what is left of `v` after a trip through a self-describing format: numbers have the same value, characters may have become strings, 256 bit numbers are lists of 32 numbers,
bit sequences are as they were, composites are composites of the same kind with the same names, and variants are named composites `{ name, values }`. -/
inductive Restores : Value T → Value Unit → Prop
  | bool {b c} : Restores (.mk (.primitive (.bool b)) c) (.mk (.primitive (.bool b)) ())
  | char {x c} : Restores (.mk (.primitive (.char x)) c) (.mk (.primitive (.char x)) ())
  | charStr {x c} : Restores (.mk (.primitive (.char x)) c) (.mk (.primitive (.string [x])) ())
  | string {s c} : Restores (.mk (.primitive (.string s)) c) (.mk (.primitive (.string s)) ())
  | number {v : Value T} {w n} (hv : v.number? = some n) (hw : IsNumber w n) : Restores v w
  | u256 {b : Bytes32} {c ws} (len : ws.length = b.bytes.length)
      (sub : ∀ (i : Nat) (x : UInt8) (w : Value Unit), b.bytes[i]? = some x → ws[i]? = some w → IsNumber w x.toNat) :
      Restores (.mk (.primitive (.u256 b)) c) (.mk (.composite (.unnamed ws)) ())
  | i256 {b : Bytes32} {c ws} (len : ws.length = b.bytes.length)
      (sub : ∀ (i : Nat) (x : UInt8) (w : Value Unit), b.bytes[i]? = some x → ws[i]? = some w → IsNumber w x.toNat) :
      Restores (.mk (.primitive (.i256 b)) c) (.mk (.composite (.unnamed ws)) ())
  | bits {b c} : Restores (.mk (.bitSequence b) c) (.mk (.bitSequence b) ())
  | named {fs : List (Str × Value T)} {gs c} (names : fs.map (fun p => p.1) = gs.map (fun p => p.1))
      (sub : ∀ (i : Nat) (x : Str × Value T) (y : Str × Value Unit), fs[i]? = some x → gs[i]? = some y → Restores x.2 y.2) :
      Restores (.mk (.composite (.named fs)) c) (.mk (.composite (.named gs)) ())
  | unnamed {vs : List (Value T)} {ws c} (len : vs.length = ws.length)
      (sub : ∀ (i : Nat) (x : Value T) (y : Value Unit), vs[i]? = some x → ws[i]? = some y → Restores x y) :
      Restores (.mk (.composite (.unnamed vs)) c) (.mk (.composite (.unnamed ws)) ())
  | variant {n} {f : Composite T} {w c d} (h : Restores (.mk (.composite f) d) w) :
      Restores (.mk (.variant (.mk n f)) c)
        (.mk (.composite (.named [("name".toList, .mk (.primitive (.string n)) ()), ("values".toList, w)])) ())

/-! ### Variants as maps -/

/-- An entry of the map form of a variant that can be read. -/
def GoodEntry (p : Der × Der) : Prop :=
  (deString p.1 = some "name".toList ∧ ∃ n, deString p.2 = some n) ∨ (deString p.1 = some "values".toList ∧ ∃ c, deComposite p.2 = some c)

/-- The last entry with the given key. -/
def LastEntry (l : List (Der × Der)) (key : Str) (x : Der) : Prop :=
  ∃ pre k post, l = pre ++ (k, x) :: post ∧ deString k = some key ∧ ∀ p ∈ post, deString p.1 ≠ some key

/-! ### Typed data -/

/-- Types that come back from `to_value` and `from_value`: no `struct S(T)`, no variants `V(T)`, and no fields of type `Value`. Field names do not repeat (a rule of Rust). -/
inductive Returns : Ty → Prop
  | bool : Returns .bool
  | num (t) : Returns (.num t)
  | char : Returns .char
  | string : Returns .string
  | bytes : Returns .bytes
  | unit : Returns .unit
  | unitStruct : Returns .unitStruct
  | option {t} (h : Returns t) : Returns (.option t)
  | seq {t} (h : Returns t) : Returns (.seq t)
  | tuple {ts} (h : ∀ t ∈ ts, Returns t) : Returns (.tuple ts)
  | tupleStruct {ts} (h : ∀ t ∈ ts, Returns t) : Returns (.tupleStruct ts)
  | struct {fs : List (Str × Ty)} (names : (fs.map (fun f => f.1)).Nodup) (h : ∀ f ∈ fs, Returns f.2) : Returns (.struct fs)
  | enum {vs : List (Str × VTy)} (newtype : ∀ v ∈ vs, ∀ t, v.2 ≠ .newtype t) (tuple : ∀ v ∈ vs, ∀ ts, v.2 = .tuple ts → ∀ t ∈ ts, Returns t)
      (names : ∀ v ∈ vs, ∀ fs : List (Str × Ty), v.2 = .struct fs → (fs.map (fun f => f.1)).Nodup)
      (struct : ∀ v ∈ vs, ∀ fs : List (Str × Ty), v.2 = .struct fs → ∀ f ∈ fs, Returns f.2) : Returns (.enum vs)
  | map {b t} (h : Returns t) : Returns (.map b t)

/-- `FieldIs ps n t d`: the field `n` of type `t` gets the data `d` from the entries `ps`: there is precisely one entry of that name, which is read as `t`, or there is none, and the type is an `Option`. -/
inductive FieldIs (ps : List (Str × Value T)) (n : Str) : Ty → Dat → Prop
  | present {t d v pre post} (split : ps = pre ++ (n, v) :: post) (once : n ∉ (pre ++ post).map (fun p => p.1)) (h : t.de v.der = some d) : FieldIs ps n t d
  | absent {t} (none : n ∉ ps.map (fun p => p.1)) : FieldIs ps n (.option t) .none

end SV
