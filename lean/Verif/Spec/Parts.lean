import Verif.Model.Trace
/-
Specification for C78: bytes that arrive in parts.
-/
namespace SV

/-- What a user does who reads a value from a connection: try to decode what has arrived (`buf`), and as long as this gives an error that more bytes may cure (`wait`), wait for the next part and try
again. In the end, also what had not been needed is there. -/
def readParts {E A : Type} (wait : E → Bool) (dec : List UInt8 → Out E (A × List UInt8)) (buf : List UInt8) : List (List UInt8) → Out E (A × List UInt8)
  | [] => dec buf
  | part :: parts =>
    match dec buf with
    | .ok (v, rest) => .ok (v, rest ++ (part :: parts).flatten)
    | .err e => if wait e then readParts wait dec (buf ++ part) parts else .err e
    | .panic => .panic

/-- The outcome of a function that moves a cursor, with what is left after the cursor if it succeeded. -/
def atCursor {E A : Type} : Out E A × List UInt8 → Out E (A × List UInt8)
  | (.ok v, r) => .ok (v, r)
  | (.err e, _) => .err e
  | (.panic, _) => .panic

/-- Errors of `parity-scale-codec`: among them that the bytes are not enough. -/
def isCodec : DErr → Bool
  | .codec => true
  | _ => false

/-- What the error of the tracing decoder is due to. -/
def TErr.reason {V : Type} : TErr V → DErr
  | .fromDecode e => e
  | .fromVisitor _ _ e => e

end SV
