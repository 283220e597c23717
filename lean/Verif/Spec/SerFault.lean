import Verif.Spec.Serde
/-
What is wrong with data that cannot be a value: the first thing in the order of writing.
-/
namespace SV

/-- A part of data of the serde data model: a key of a map, or something else. -/
inductive Part where
  | key (s : Ser)
  | val (s : Ser)

/-- The parts of data, in the order in which they are written; the key of an entry goes before its value. -/
def partsOf : Ser → List Part
  | .some x | .newtypeStruct x | .newtypeVariant _ x => [.val x]
  | .seq xs | .tuple xs | .tupleStruct xs | .tupleVariant _ xs => xs.map .val
  | .map es => es.flatMap (fun e => [.key e.1, .val e.2])
  | .struct fs | .structVariant _ fs => fs.map (fun f => .val f.2)
  | _ => []

/-- A part that is all right: there is a value for it, which for a key has to be a string or character. -/
def Part.Fine : Part → Prop
  | .key s => ∃ v n, StandsFor s v ∧ KeyName v n
  | .val s => ∃ v, StandsFor s v

/-- `FirstFault s e`: the first thing in `s` that cannot be written is at fault as `e` says. -/
inductive FirstFault : Ser → SerErr → Prop
  | f32 : FirstFault .f32 .floats
  | f64 : FirstFault .f64 .floats
  | fail (msg) : FirstFault (.fail msg) (.custom msg)
  | inVal {s i x e} (part : (partsOf s)[i]? = some (.val x)) (before : ∀ (j : Nat) p, j < i → (partsOf s)[j]? = some p → p.Fine)
      (h : FirstFault x e) : FirstFault s e
  | inKey {s i x e} (part : (partsOf s)[i]? = some (.key x)) (before : ∀ (j : Nat) p, j < i → (partsOf s)[j]? = some p → p.Fine)
      (h : FirstFault x e) : FirstFault s e
  | key {s i x v} (part : (partsOf s)[i]? = some (.key x)) (before : ∀ (j : Nat) p, j < i → (partsOf s)[j]? = some p → p.Fine)
      (rep : StandsFor x v) (bad : ∀ n, ¬ KeyName v n) : FirstFault s .mapKey

end SV
