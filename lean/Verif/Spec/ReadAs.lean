import Verif.Spec.Serde
/-
Specification of what `from_value` reads: a relation between Rust types, values and data, defined by itself, without any function of the model.
(`Ty` and `Dat` of `Model/Typed.lean` are what Rust types and their data are called here; `utf8Bytes` is UTF-8; `Value.fields?`, `Composite.vals` and `Value.number?` are the contents of a value.)
-/
namespace SV

variable {T : Type}

/-- One bit of a bit sequence is read as a `bool` or as a `Value`, and as nothing else. -/
inductive BitAs (b : Bool) : Ty → Dat → Prop
  | bool : BitAs b .bool (.bool b)
  | value : BitAs b .value (.value (.mk (.primitive (.bool b)) ()))

/-- As many bits as types and as data, and each of them read as its type. -/
def BitsEach (ts : List Ty) (bs : List Bool) (ds : List Dat) : Prop :=
  bs.length = ts.length ∧ ds.length = ts.length ∧
    ∀ (i : Nat) (t : Ty) (b : Bool) (d : Dat), ts[i]? = some t → bs[i]? = some b → ds[i]? = some d → BitAs b t d

/-- The bits of a bit sequence, where they are the field `__bitvec__values__` of a struct, are read as a list of booleans that has to be used up. -/
inductive BitsAs (bs : List Bool) : Ty → Dat → Prop
  | seq {t ds} (each : BitsEach (List.replicate bs.length t) bs ds) : BitsAs bs (.seq t) (.list ds)
  | tuple {ts ds} (each : BitsEach ts bs ds) : BitsAs bs (.tuple ts) (.list ds)
  | tupleStruct {ts ds} (each : BitsEach ts bs ds) : BitsAs bs (.tupleStruct ts) (.list ds)
  | struct {fs : List (Str × Ty)} {ds} (each : BitsEach (fs.map (fun f => f.2)) bs ds) : BitsAs bs (.struct fs) (.list ds)
  | newtype {t ds} (each : BitsEach [t] bs ds) : BitsAs bs (.newtype t) (.list ds)
  | bytes (empty : bs = []) : BitsAs bs .bytes (.bytes [])
  | value {ws} (each : BoolList ws bs) : BitsAs bs .value (.value (.mk (.composite (.unnamed ws)) ()))

/-- The map `m` that the entries `es` make, when they are put into it one after the other: each key once, in the order in which they came first, with what came last. -/
def MapOf (es m : List (Str × Dat)) : Prop :=
  m.map (fun p => p.1) = (es.map (fun p => p.1)).eraseDups ∧
    ∀ k x, (k, x) ∈ m → ∃ pre post, es = pre ++ (k, x) :: post ∧ k ∉ post.map (fun p => p.1)

/-- `ReadAs t v d`: the value `v` is read as the Rust type `t`, and that gives the data `d`. -/
inductive ReadAs : Ty → Value T → Dat → Prop
  | bool {v b} (h : v.value = .primitive (.bool b)) : ReadAs .bool v (.bool b)
  /-- Integers, signed or not: as any integer type that holds them. (A `Num` is a number in the range of its type.) -/
  | num {t v} {n : Num} (ty : n.ty = t) (h : v.number? = some n.val) : ReadAs (.num t) v (.num n)
  | char {v c} (h : v.value = .primitive (.char c)) : ReadAs .char v (.char c)
  | charOfString {v c} (h : v.value = .primitive (.string [c])) : ReadAs .char v (.char c)
  | string {v s} (h : v.value = .primitive (.string s)) : ReadAs .string v (.str s)
  | stringOfChar {v c} (h : v.value = .primitive (.char c)) : ReadAs .string v (.str [c])
  /-- 256 bit numbers whose bytes are UTF-8 are read as strings. -/
  | stringOf256 {v s} {b : Bytes32} (utf8 : b.bytes = utf8Bytes s) (h : v.value = .primitive (.u256 b) ∨ v.value = .primitive (.i256 b)) : ReadAs .string v (.str s)
  | bytes {v bs} {c : Composite T} (h : v.value = .composite c) (len : c.vals.length = bs.length)
      (each : ∀ (i : Nat) w b, c.vals[i]? = some w → bs[i]? = some b → ∃ n, w.value = .primitive (.u128 n) ∧ n.val = b.toNat) : ReadAs .bytes v (.bytes bs)
  | bytesOfString {v s} (h : v.value = .primitive (.string s)) : ReadAs .bytes v (.bytes (utf8Bytes s))
  | bytesOfChar {v c} (h : v.value = .primitive (.char c)) : ReadAs .bytes v (.bytes (utf8Bytes [c]))
  | bytesOf256 {v} {b : Bytes32} (h : v.value = .primitive (.u256 b) ∨ v.value = .primitive (.i256 b)) : ReadAs .bytes v (.bytes b.bytes)
  /-- Composites and variants without values, whatever the name of the variant. -/
  | unit {v c} (h : v.fields? = some c) (empty : c.vals = []) : ReadAs .unit v .unit
  | unitStruct {v c} (h : v.fields? = some c) (empty : c.vals = []) : ReadAs .unitStruct v .unit
  | none {t v} (h : v.value = .variant (.mk "None".toList (.unnamed []))) : ReadAs (.option t) v .none
  | some {t v w d} (h : v.value = .variant (.mk "Some".toList (.unnamed [w]))) (sub : ReadAs t w d) : ReadAs (.option t) v (.some d)
  /-- `struct S(T)` as `T`, from composites and primitives .. -/
  | newtype {t v d} (h : (∃ f, v.value = .composite f) ∨ ∃ p, v.value = .primitive p) (sub : ReadAs t v d) : ReadAs (.newtype t) v (.list [d])
  /-- .. from variants, unless `T` is an `Option` or a struct .. -/
  | newtypeVariant {t v x d} (h : v.value = .variant x) (opt : ∀ u, t ≠ .option u) (str : ∀ fs, t ≠ .struct fs) (sub : ReadAs t v d) : ReadAs (.newtype t) v (.list [d])
  /-- .. and if it is a struct, from the fields of a variant, whatever its name. -/
  | newtypeFields {fs v n f c d} (h : v.value = .variant (.mk n f)) (sub : ReadAs (.struct fs) (.mk (.composite f) c) d) : ReadAs (.newtype (.struct fs)) v (.list [d])
  /-- Composites and variants, with names and without. -/
  | seq {t v c ds} (h : v.fields? = some c) (len : ds.length = c.vals.length)
      (sub : ∀ (i : Nat) w d, c.vals[i]? = some w → ds[i]? = some d → ReadAs t w d) : ReadAs (.seq t) v (.list ds)
  | tuple {ts v c ds} (h : v.fields? = some c) (size : c.vals.length = ts.length) (len : ds.length = ts.length)
      (sub : ∀ (i : Nat) t w d, ts[i]? = some t → c.vals[i]? = some w → ds[i]? = some d → ReadAs t w d) : ReadAs (.tuple ts) v (.list ds)
  | tupleStruct {ts v c ds} (h : v.fields? = some c) (size : c.vals.length = ts.length) (len : ds.length = ts.length)
      (sub : ∀ (i : Nat) t w d, ts[i]? = some t → c.vals[i]? = some w → ds[i]? = some d → ReadAs t w d) : ReadAs (.tupleStruct ts) v (.list ds)
  /-- Structs are read from named composites by name: an entry for each field, or none if its type is an `Option`, and not several. Other entries do not matter. -/
  | structByName {fs : List (Str × Ty)} {v} {ps : List (Str × Value T)} {ds} (h : v.value = .composite (.named ps)) (len : ds.length = fs.length)
      (once : ∀ f ∈ fs, (ps.filter (fun p => decide (p.1 = f.1))).length ≤ 1)
      (sub : ∀ (i : Nat) f d w, fs[i]? = some f → ds[i]? = some d → (f.1, w) ∈ ps → ReadAs f.2 w d)
      (absent : ∀ (i : Nat) f d, fs[i]? = some f → ds[i]? = some d → f.1 ∉ ps.map (fun p => p.1) → (∃ u, f.2 = .option u) ∧ d = .none) : ReadAs (.struct fs) v (.list ds)
  /-- From unnamed composites, in order; values that are left over do not matter. -/
  | structInOrder {fs : List (Str × Ty)} {v vs ds} (h : v.value = .composite (.unnamed vs)) (size : fs.length ≤ vs.length) (len : ds.length = fs.length)
      (sub : ∀ (i : Nat) f w d, fs[i]? = some f → vs[i]? = some w → ds[i]? = some d → ReadAs f.2 w d) : ReadAs (.struct fs) v (.list ds)
  /-- From bit sequences, as from a named composite with the one field `__bitvec__values__`. -/
  | structOfBits {fs : List (Str × Ty)} {v bs ds} (h : v.value = .bitSequence bs) (len : ds.length = fs.length)
      (bits : ∀ (i : Nat) f d, fs[i]? = some f → ds[i]? = some d → f.1 = "__bitvec__values__".toList → BitsAs bs f.2 d)
      (absent : ∀ (i : Nat) f d, fs[i]? = some f → ds[i]? = some d → f.1 ≠ "__bitvec__values__".toList → (∃ u, f.2 = .option u) ∧ d = .none) : ReadAs (.struct fs) v (.list ds)
  /-- Enums are read from variants; the variant of the type is the first of that name (and the only one, in Rust), and its contents are read like a `()`, .. -/
  | enumUnit {pre post : List (Str × VTy)} {v n f} (h : v.value = .variant (.mk n f)) (first : n ∉ pre.map (fun p => p.1)) (empty : f.vals = []) :
      ReadAs (.enum (pre ++ (n, .unit) :: post)) v (.enum n [])
  /-- .. one thing for all of the fields together, .. -/
  | enumNewtype {pre post : List (Str × VTy)} {v n f t c d} (h : v.value = .variant (.mk n f)) (first : n ∉ pre.map (fun p => p.1))
      (sub : ReadAs t (.mk (.composite f) c) d) : ReadAs (.enum (pre ++ (n, .newtype t) :: post)) v (.enum n [d])
  /-- .. a tuple, .. -/
  | enumTuple {pre post : List (Str × VTy)} {v n f ts c ds} (h : v.value = .variant (.mk n f)) (first : n ∉ pre.map (fun p => p.1))
      (sub : ReadAs (.tuple ts) (.mk (.composite f) c) (.list ds)) : ReadAs (.enum (pre ++ (n, .tuple ts) :: post)) v (.enum n ds)
  /-- .. or a struct. -/
  | enumStruct {pre post : List (Str × VTy)} {v n f fs c ds} (h : v.value = .variant (.mk n f)) (first : n ∉ pre.map (fun p => p.1))
      (sub : ReadAs (.struct fs) (.mk (.composite f) c) (.list ds)) : ReadAs (.enum (pre ++ (n, .struct fs) :: post)) v (.enum n ds)
  /-- Maps are read from named composites and from variants with named fields; keys that are characters have to be characters. All of the entries have to be read. -/
  | map {chars t v} {l : List (Str × Value T)} {es m : List (Str × Dat)} (h : v.fields? = some (.named l)) (keys : chars = true → ∀ p ∈ l, p.1.length = 1)
      (names : es.map (fun p => p.1) = l.map (fun p => p.1))
      (sub : ∀ (i : Nat) (p : Str × Value T) (e : Str × Dat), l[i]? = some p → es[i]? = some e → ReadAs t p.2 e.2) (all : MapOf es m) : ReadAs (.map chars t) v (.map m)
  /-- Values are read back as `Back` says. -/
  | value {v w} (h : Back v w) : ReadAs .value v (.value w)

end SV
