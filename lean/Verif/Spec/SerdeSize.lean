import Verif.Spec.Doc
import Verif.Spec.Size
import Verif.Spec.Format
/-
How large data of the serde data model are, in the measures of `Spec/Size.lean`.
-/
namespace SV

mutual
/-- The size of data given to a serializer: one for each call, the characters of strings, and the bytes of byte strings; the keys of maps count as names (below). -/
def Ser.size : Ser → Nat
  | .str s => 1 + s.length
  | .bytes bs => 1 + bs.length
  | .some x => 1 + x.size
  | .newtypeStruct x => 1 + x.size
  | .newtypeVariant _ x => 1 + x.size
  | .seq xs => 1 + sersSize xs
  | .tuple xs => 1 + sersSize xs
  | .tupleStruct xs => 1 + sersSize xs
  | .tupleVariant _ xs => 1 + sersSize xs
  | .map es => 1 + entriesSize es
  | .struct fs => 1 + serFieldsSize fs
  | .structVariant _ fs => 1 + serFieldsSize fs
  | .bool _ | .num _ | .f32 | .f64 | .char _ | .none | .unit | .unitStruct | .unitVariant _ | .fail _ => 1
def sersSize : List Ser → Nat
  | [] => 0
  | x :: xs => x.size + sersSize xs
def entriesSize : List (Ser × Ser) → Nat
  | [] => 0
  | (_, x) :: es => x.size + entriesSize es
def serFieldsSize : List (Str × Ser) → Nat
  | [] => 0
  | (_, x) :: fs => x.size + serFieldsSize fs
end

/-- The characters of a key, if it is a string or a character. -/
def Ser.keySize : Ser → Nat
  | .str s => s.length
  | .char _ => 1
  | _ => 0

mutual
/-- The characters of the names in data given to a serializer: of fields, keys and variants, where options are variants `None` and `Some`. -/
def Ser.nameSize : Ser → Nat
  | .none => 4
  | .some x => 4 + x.nameSize
  | .unitVariant n => n.length
  | .newtypeStruct x => x.nameSize
  | .newtypeVariant n x => n.length + x.nameSize
  | .seq xs => sersNameSize xs
  | .tuple xs => sersNameSize xs
  | .tupleStruct xs => sersNameSize xs
  | .tupleVariant n xs => n.length + sersNameSize xs
  | .map es => entriesNameSize es
  | .struct fs => serFieldsNameSize fs
  | .structVariant n fs => n.length + serFieldsNameSize fs
  | .bool _ | .num _ | .f32 | .f64 | .char _ | .str _ | .bytes _ | .unit | .unitStruct | .fail _ => 0
def sersNameSize : List Ser → Nat
  | [] => 0
  | x :: xs => x.nameSize + sersNameSize xs
def entriesNameSize : List (Ser × Ser) → Nat
  | [] => 0
  | (k, x) :: es => k.keySize + x.nameSize + entriesNameSize es
def serFieldsNameSize : List (Str × Ser) → Nat
  | [] => 0
  | (n, x) :: fs => n.length + x.nameSize + serFieldsNameSize fs
end

/-- The data directly inside data given to a serializer, other than keys and bytes. -/
def Ser.parts : Ser → List Ser
  | .some x => [x]
  | .newtypeStruct x => [x]
  | .newtypeVariant _ x => [x]
  | .seq xs => xs
  | .tuple xs => xs
  | .tupleStruct xs => xs
  | .tupleVariant _ xs => xs
  | .map es => es.map (fun p => p.2)
  | .struct fs => fs.map (fun p => p.2)
  | .structVariant _ fs => fs.map (fun p => p.2)
  | _ => []

/-- `SerDeep x n`: there are `n` data in `x` (the first of them `x`) each of which is directly inside the one before; bytes are inside their byte string. -/
inductive SerDeep : Ser → Nat → Prop
  | here {x} : SerDeep x 1
  | byte {b bs} : SerDeep (.bytes (b :: bs)) 2
  | inside {x y n} : y ∈ x.parts → SerDeep y n → SerDeep x (n + 1)

mutual
/-- The size of a document: one for each thing in it, the characters of strings, and the bytes of byte strings; the keys of maps and the names of enum variants count as names (below). -/
def Doc.size : Doc → Nat
  | .str s => 1 + s.length
  | .bytes bs => 1 + bs.length
  | .some x => 1 + x.size
  | .newtype x => 1 + x.size
  | .seq xs => 1 + docsSize xs
  | .map es => 1 + docEntriesSize es
  | .enum _ y => 1 + y.size
  | .unit | .bool _ | .num _ | .float | .char _ | .none | .bad _ => 1
def docsSize : List Doc → Nat
  | [] => 0
  | x :: xs => x.size + docsSize xs
def docEntriesSize : List (Doc × Doc) → Nat
  | [] => 0
  | (_, x) :: es => x.size + docEntriesSize es
end

/-- The characters or bytes of a key. -/
def Doc.keySize : Doc → Nat
  | .str s => s.length
  | .char _ => 1
  | .bytes bs => bs.length
  | _ => 0

mutual
/-- The characters or bytes of the names in a document. -/
def Doc.nameSize : Doc → Nat
  | .none => 4
  | .some x => 4 + x.nameSize
  | .newtype x => x.nameSize
  | .seq xs => docsNameSize xs
  | .map es => docEntriesNameSize es
  | .enum x y => x.keySize + y.nameSize
  | .unit | .bool _ | .num _ | .float | .char _ | .str _ | .bytes _ | .bad _ => 0
def docsNameSize : List Doc → Nat
  | [] => 0
  | x :: xs => x.nameSize + docsNameSize xs
def docEntriesNameSize : List (Doc × Doc) → Nat
  | [] => 0
  | (k, x) :: es => k.keySize + x.nameSize + docEntriesNameSize es
end

end SV
