import Verif.Model.Value
/-
Independent specification vocabulary for values: shape equality, children, paths.
-/
namespace SV

variable {T U S : Type}

/-- The fields of a composite value or of a variant value; `none` for other values. -/
def Value.fields? : Value T → Option (Composite T)
  | .mk (.composite c) _ => some c
  | .mk (.variant (.mk _ c)) _ => some c
  | _ => none

/-- The direct children of a value, in order. -/
def Value.children : Value T → List (Value T)
  | .mk (.composite (.named fs)) _ => fs.map (fun p => p.2)
  | .mk (.composite (.unnamed vs)) _ => vs
  | .mk (.variant (.mk _ (.named fs))) _ => fs.map (fun p => p.2)
  | .mk (.variant (.mk _ (.unnamed vs))) _ => vs
  | _ => []

/-- Two values that agree in everything but contexts: same kind at every node, same names in the
same order, same variant names, same bits and same primitives. -/
inductive SameShape : Value T → Value U → Prop
  | named {fs : List (Str × Value T)} {gs : List (Str × Value U)} {c d} (names : fs.map (fun p => p.1) = gs.map (fun p => p.1))
      (sub : ∀ (i : Nat) (x : Str × Value T) (y : Str × Value U), fs[i]? = some x → gs[i]? = some y → SameShape x.2 y.2) :
      SameShape (.mk (.composite (.named fs)) c) (.mk (.composite (.named gs)) d)
  | unnamed {fs : List (Value T)} {gs : List (Value U)} {c d} (len : fs.length = gs.length)
      (sub : ∀ (i : Nat) (x : Value T) (y : Value U), fs[i]? = some x → gs[i]? = some y → SameShape x y) :
      SameShape (.mk (.composite (.unnamed fs)) c) (.mk (.composite (.unnamed gs)) d)
  | variantNamed {n} {fs : List (Str × Value T)} {gs : List (Str × Value U)} {c d} (names : fs.map (fun p => p.1) = gs.map (fun p => p.1))
      (sub : ∀ (i : Nat) (x : Str × Value T) (y : Str × Value U), fs[i]? = some x → gs[i]? = some y → SameShape x.2 y.2) :
      SameShape (.mk (.variant (.mk n (.named fs))) c) (.mk (.variant (.mk n (.named gs))) d)
  | variantUnnamed {n} {fs : List (Value T)} {gs : List (Value U)} {c d} (len : fs.length = gs.length)
      (sub : ∀ (i : Nat) (x : Value T) (y : Value U), fs[i]? = some x → gs[i]? = some y → SameShape x y) :
      SameShape (.mk (.variant (.mk n (.unnamed fs))) c) (.mk (.variant (.mk n (.unnamed gs))) d)
  | bits {b c d} : SameShape (.mk (.bitSequence b) c) (.mk (.bitSequence b) d)
  | prim {p c d} : SameShape (.mk (.primitive p) c) (.mk (.primitive p) d)

/-- `ContextsTo v path cs`: following the child indexes `path` from the root of `v`, the contexts met
(root first, target last) are `cs`. -/
inductive ContextsTo : Value T → List Nat → List T → Prop
  | here (v : Value T) : ContextsTo v [] [v.context]
  | step {v w : Value T} {i : Nat} {p : List Nat} {cs : List T}
      (child : v.children[i]? = some w) (rest : ContextsTo w p cs) :
      ContextsTo v (i :: p) (v.context :: cs)

/-- Run a stateful closure on a list of inputs, from left to right, collecting the outputs. -/
def runClosure (f : S → T → U × S) : S → List T → List U
  | _, [] => []
  | s, t :: ts => (f s t).1 :: runClosure f (f s t).2 ts

/-- One navigation step, as documented for `At`: a name finds the first field with that name (named
fields only); an index finds the child in that position. -/
inductive Step : Value T → Loc → Value T → Prop
  | name {v w : Value T} {s : Str} {pre post : List (Str × Value T)}
      (fields : v.fields? = some (.named (pre ++ (s, w) :: post)))
      (first : ∀ p ∈ pre, p.1 ≠ s) : Step v (.str s) w
  | indexNamed {v w : Value T} {fs : List (Str × Value T)} {k : Str} {i : Nat}
      (fields : v.fields? = some (.named fs)) (nth : fs[i]? = some (k, w)) : Step v (.idx i) w
  | indexUnnamed {v w : Value T} {vs : List (Value T)} {i : Nat}
      (fields : v.fields? = some (.unnamed vs)) (nth : vs[i]? = some w) : Step v (.idx i) w

/-- Following a whole chain of locations. -/
inductive Steps : Value T → List Loc → Value T → Prop
  | nil (v : Value T) : Steps v [] v
  | cons {v u w : Value T} {l : Loc} {ls : List Loc} (h : Step v l u) (t : Steps u ls w) :
      Steps v (l :: ls) w

end SV
