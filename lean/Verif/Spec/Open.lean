import Verif.Spec.Grammar
/-
Positions inside of a text at which a value is expected.
-/
namespace SV

/-- What is being written when the text breaks off: a value or the brackets of a composite. -/
inductive OpenCat where
  | val
  | comp

/-- `OpenTxt u X D .val p`: `p` is the beginning of a text of some value, up to a position at which a
(possibly nested) value is expected. `D q` is required of the text `q` from each enclosing value's start. -/
inductive OpenTxt (u : Uni) (X : Value Unit → Str → Prop) (D : Str → Prop) : OpenCat → Str → Prop
  | here : OpenTxt u X D .val []
  | composite {p} (hd : D p) (h : OpenTxt u X D .comp p) : OpenTxt u X D .val p
  | variant {n s w p} (hd : D (s ++ w ++ p)) (hn : VariantName u n s) (hw : Ws u w)
      (h : OpenTxt u X D .comp p) : OpenTxt u X D .val (s ++ w ++ p)
  | unnamedFirst {w q} (hw : Ws u w) (h : OpenTxt u X D .val q) : OpenTxt u X D .comp ('(' :: w ++ q)
  | unnamedLater {w vs x w3 w4 q} (hw : Ws u w) (hx : Txt u X (.vals vs) x) (hw3 : Ws u w3)
      (hw4 : Ws u w4) (h : OpenTxt u X D .val q) :
      OpenTxt u X D .comp ('(' :: w ++ (x ++ w3 ++ ',' :: w4 ++ q))
  | namedFirst {w k n w1 w2 q} (hw : Ws u w) (hk : FieldName u k n) (hw1 : Ws u w1) (hw2 : Ws u w2)
      (h : OpenTxt u X D .val q) : OpenTxt u X D .comp ('{' :: w ++ (n ++ w1 ++ ':' :: w2 ++ q))
  | namedLater {w fs x w3 w4 k n w1 w2 q} (hw : Ws u w) (hx : Txt u X (.fields fs) x) (hw3 : Ws u w3)
      (hw4 : Ws u w4) (hk : FieldName u k n) (hw1 : Ws u w1) (hw2 : Ws u w2)
      (h : OpenTxt u X D .val q) :
      OpenTxt u X D .comp ('{' :: w ++ (x ++ w3 ++ ',' :: w4 ++ (n ++ w1 ++ ':' :: w2 ++ q)))

end SV
