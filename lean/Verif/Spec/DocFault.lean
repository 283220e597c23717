import Verif.Model.DeErr
import Verif.Spec.Doc
/-
Specification of the errors of reading values from a document of any self-describing format: the first thing that is wrong, in the order of the document.
-/
namespace SV

/-- What a document is called in an error message that says that it is of an invalid type. -/
inductive DocKind : Doc → Unexp → Prop
  | unit : DocKind .unit .unit
  | bool (b) : DocKind (.bool b) (.bool b)
  | num (n) : DocKind (.num n) (.num n)
  | float : DocKind .float .float
  | char (c) : DocKind (.char c) (.str [c])
  | str (s) : DocKind (.str s) (.str s)
  | bytes (bs) : DocKind (.bytes bs) (.bytes bs)
  | none : DocKind .none .option
  | some (x) : DocKind (.some x) .option
  | newtype (x) : DocKind (.newtype x) .newtype
  | seq (xs) : DocKind (.seq xs) .seq
  | map (es) : DocKind (.map es) .map
  | enum (x y) : DocKind (.enum x y) .enum

/-- `WrongKind doc expected e`: the error that something else was expected; a malformed place reports its own error. -/
inductive WrongKind (doc : Doc) (expected : Expect) : DeErr → Prop
  | kind {u} (h : DocKind doc u) : WrongKind doc expected (.invalidType u expected)
  | bad {msg} (h : doc = .bad msg) : WrongKind doc expected (.refused (.foreign msg))

/-- The error of reading a document as a name. -/
inductive NameFault : Doc → DeErr → Prop
  | bytes {bs} (h : ∀ s, utf8Bytes s ≠ bs) : NameFault (.bytes bs) (.invalidValue (.bytes bs) .string)
  | kind {x e} (h1 : ∀ s, x ≠ .str s) (h2 : ∀ c, x ≠ .char c) (h3 : ∀ bs, x ≠ .bytes bs) (h : WrongKind x .string e) : NameFault x e

/-- The error of reading a document as a list of booleans: the first element that is not one. -/
inductive BoolsFault : Doc → DeErr → Prop
  | kind {x e} (h1 : ∀ xs, x ≠ .seq xs) (h : WrongKind x .seq e) : BoolsFault x e
  | elem {pre x post e} (fine : ∀ y ∈ pre, ∃ b, y = .bool b) (h1 : ∀ b, x ≠ .bool b) (h : WrongKind x .bool e) : BoolsFault (.seq (pre ++ x :: post)) e

/-- Entries of a map that can be read. -/
def EntriesRead (strict : Bool) (es : List (Doc × Doc)) : Prop := ∀ p ∈ es, (∃ s, DocName p.1 s) ∧ ∃ v, DocValue strict p.2 v

mutual
/-- `DocFault strict doc e`: reading the document as a `Value` fails with `e`. -/
inductive DocFault (strict : Bool) : Doc → DeErr → Prop
  | float : DocFault strict .float (.invalidType .float .value)
  | bad (msg) : DocFault strict (.bad msg) (.refused (.foreign msg))
  | some {x e} (h : DocFault strict x e) : DocFault strict (.some x) e
  | newtype {x e} (h : DocFault strict x e) : DocFault strict (.newtype x) e
  | seq {pre x post e} (fine : ∀ y ∈ pre, ∃ v, DocValue strict y v) (h : DocFault strict x e) : DocFault strict (.seq (pre ++ x :: post)) e
  | mapKey {pre k x post e} (bits : ¬ BitMap (pre ++ (k, x) :: post)) (fine : EntriesRead strict pre) (h : NameFault k e) : DocFault strict (.map (pre ++ (k, x) :: post)) e
  | mapVal {pre k s x post e} (bits : ¬ BitMap (pre ++ (k, x) :: post)) (fine : EntriesRead strict pre) (key : DocName k s) (h : DocFault strict x e) :
      DocFault strict (.map (pre ++ (k, x) :: post)) e
  | bits {k x es e} (key : DocName k "__bitvec__values__".toList) (h : BoolsFault x e) : DocFault strict (.map ((k, x) :: es)) e
  | bitsRest {k x es bs} (key : DocName k "__bitvec__values__".toList) (h : DocBools x bs) (s : strict = true) (rest : es ≠ []) :
      DocFault strict (.map ((k, x) :: es)) .leftover
  | enumName {x y e} (h : NameFault x e) : DocFault strict (.enum x y) e
  | enum {x s y e} (name : DocName x s) (h : CompositeFault strict y e) : DocFault strict (.enum x y) e
/-- `CompositeFault strict doc e`: reading the document as a `Composite` fails with `e`. -/
inductive CompositeFault (strict : Bool) : Doc → DeErr → Prop
  | kind {x e} (h : (∃ b, x = .bool b) ∨ (∃ n, x = .num n) ∨ x = .float ∨ (∃ c, x = .char c) ∨ (∃ s, x = .str s) ∨ x = .none ∨ (∃ y, x = .some y) ∨ (∃ y z, x = .enum y z) ∨
      ∃ msg, x = .bad msg) (wrong : WrongKind x .composite e) : CompositeFault strict x e
  | newtype {x e} (h : CompositeFault strict x e) : CompositeFault strict (.newtype x) e
  | seq {pre x post e} (fine : ∀ y ∈ pre, ∃ v, DocValue strict y v) (h : DocFault strict x e) : CompositeFault strict (.seq (pre ++ x :: post)) e
  | mapKey {pre k x post e} (fine : EntriesRead strict pre) (h : NameFault k e) : CompositeFault strict (.map (pre ++ (k, x) :: post)) e
  | mapVal {pre k s x post e} (fine : EntriesRead strict pre) (key : DocName k s) (h : DocFault strict x e) : CompositeFault strict (.map (pre ++ (k, x) :: post)) e
end

/-- An entry of a map that is read as a `Variant` and can be read. -/
def VariantEntryRead (strict : Bool) (p : Doc × Doc) : Prop :=
  (DocName p.1 "name".toList ∧ ∃ s, DocName p.2 s) ∨ (DocName p.1 "values".toList ∧ ∃ c, DocComposite strict p.2 c)

/-- The error of an entry of a map that is read as a `Variant`. -/
inductive EntryFault (strict : Bool) (k x : Doc) : DeErr → Prop
  | key {e} (h : NameFault k e) : EntryFault strict k x e
  | name {e} (key : DocName k "name".toList) (h : NameFault x e) : EntryFault strict k x e
  | values {e} (key : DocName k "values".toList) (h : CompositeFault strict x e) : EntryFault strict k x e
  | other {s} (key : DocName k s) (h1 : s ≠ "name".toList) (h2 : s ≠ "values".toList) : EntryFault strict k x (.unknownField s)

/-- `VariantFault strict doc e`: reading the document as a `Variant` fails with `e`. -/
inductive VariantFault (strict : Bool) : Doc → DeErr → Prop
  | enumName {x y e} (h : NameFault x e) : VariantFault strict (.enum x y) e
  | enum {x s y e} (name : DocName x s) (h : CompositeFault strict y e) : VariantFault strict (.enum x y) e
  | some {x e} (h : DocFault strict x e) : VariantFault strict (.some x) e
  | entry {pre k x post e} (fine : ∀ p ∈ pre, VariantEntryRead strict p) (h : EntryFault strict k x e) : VariantFault strict (.map (pre ++ (k, x) :: post)) e
  | missing {es} (fine : ∀ p ∈ es, VariantEntryRead strict p) (h : (∀ p ∈ es, ¬ DocName p.1 "name".toList) ∨ ∀ p ∈ es, ¬ DocName p.1 "values".toList) :
      VariantFault strict (.map es) .noNameAndValues
  | kind {x e} (h1 : ∀ y z, x ≠ .enum y z) (h2 : ∀ y, x ≠ .some y) (h3 : x ≠ .none) (h4 : ∀ es, x ≠ .map es) (h : WrongKind x .variant e) : VariantFault strict x e

/-- A number from 0 to 255, held in a type of at most 64 bits. -/
def DocByte (x : Doc) : Prop := ∃ n : Num, x = .num n ∧ 0 ≤ n.val ∧ n.val < 256 ∧ n.ty.bits < 128

/-- `PrimitiveFault doc e`: reading the document as a `Primitive` fails with `e`. -/
inductive PrimitiveFault : Doc → DeErr → Prop
  | bytes {bs} (h : bs.length ≠ 32) : PrimitiveFault (.bytes bs) (.invalidType (.bytes bs) .primitive)
  | wide {pre n post} (fine : ∀ y ∈ pre, DocByte y) (h : n.ty.bits = 128) : PrimitiveFault (.seq (pre ++ .num n :: post)) (.invalidType (.num n) (.num .u8))
  | range {pre n post} (fine : ∀ y ∈ pre, DocByte y) (h : n.ty.bits ≠ 128) (range : n.val < 0 ∨ 256 ≤ n.val) :
      PrimitiveFault (.seq (pre ++ .num n :: post)) (.invalidValue (.num n) (.num .u8))
  | elem {pre x post e} (fine : ∀ y ∈ pre, DocByte y) (h : ∀ n, x ≠ .num n) (wrong : WrongKind x (.num .u8) e) : PrimitiveFault (.seq (pre ++ x :: post)) e
  | length {xs} (fine : ∀ y ∈ xs, DocByte y) (h : xs.length ≠ 32) : PrimitiveFault (.seq xs) (.invalidLength xs.length .bytes32)
  | kind {x e} (h1 : ∀ b, x ≠ .bool b) (h2 : ∀ n, x ≠ .num n) (h3 : ∀ c, x ≠ .char c) (h4 : ∀ s, x ≠ .str s) (h5 : ∀ bs, x ≠ .bytes bs) (h6 : ∀ xs, x ≠ .seq xs)
      (h : WrongKind x .primitive e) : PrimitiveFault x e

end SV
