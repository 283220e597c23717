import Verif.Model.DeCap
/-
Specification: for how many entries memory is reserved when values are read from a deserializer.
-/
namespace SV

/-- It can be read, as a string or a value. -/
def ReadsStr (d : HDer) : Prop := ∃ s, deString d.erase = some s
def ReadsVal (d : HDer) : Prop := ∃ v, deValue d.erase = some v
def ReadsComp (d : HDer) : Prop := ∃ c, deComposite d.erase = some c

/-- A string that marks bit sequences. -/
def IsBitKey (d : HDer) : Prop := deString d.erase = some "__bitvec__values__".toList

mutual
/-- `Reserves d n`: reading a value from `d` gets to a point where memory for `n` entries is reserved, if all was reserved before. -/
inductive Reserves : HDer → Nat → Prop
  /-- For a sequence, as many as its size hint says; none without a hint. -/
  | seq {d closed hint l} : d.ask .any = .seq closed hint l → Reserves d (hint.getD 0)
  | element {d closed hint before e after n} : d.ask .any = .seq closed hint (before ++ e :: after) → (∀ b ∈ before, ReadsVal b) → Reserves e n → Reserves d n
  /-- For a map, as many as its size hint says when the first key has been read, unless this is that of bit sequences. -/
  | map {d closed hint k v r} : d.ask .any = .map closed hint ((k, v) :: r) → ReadsStr k → ¬ IsBitKey k → Reserves d ((hint 1).getD 0)
  | entry {d closed hint before k e after n} : d.ask .any = .map closed hint (before ++ (k, e) :: after) → (∀ p, (before ++ (k, e) :: after).head? = some p → ¬ IsBitKey p.1) →
      (∀ b ∈ before, ReadsStr b.1 ∧ ReadsVal b.2) → ReadsStr k → Reserves e n → Reserves d n
  | some {d e n} : d.ask .any = .some e → Reserves e n → Reserves d n
  | newtype {d e n} : d.ask .any = .newtype e → Reserves e n → Reserves d n
  | variant {d name e access n} : d.ask .any = .enum name e access → ReadsStr name → ReservesComp e n → Reserves d n
/-- `ReservesComp d n`: reading a composite from `d` does. -/
inductive ReservesComp : HDer → Nat → Prop
  | seq {d closed hint l} : d.ask .any = .seq closed hint l → ReservesComp d (hint.getD 0)
  | element {d closed hint before e after n} : d.ask .any = .seq closed hint (before ++ e :: after) → (∀ b ∈ before, ReadsVal b) → Reserves e n → ReservesComp d n
  /-- For a map, as many as its size hint says at first. -/
  | map {d closed hint l} : d.ask .any = .map closed hint l → ReservesComp d ((hint 0).getD 0)
  | entry {d closed hint before k e after n} : d.ask .any = .map closed hint (before ++ (k, e) :: after) → (∀ b ∈ before, ReadsStr b.1 ∧ ReadsVal b.2) → ReadsStr k → Reserves e n → ReservesComp d n
  | newtype {d e n} : d.ask .any = .newtype e → ReservesComp e n → ReservesComp d n
end

/-- What is read before an entry of the map form of a variant. -/
def ReadsField (p : HDer × HDer) : Prop :=
  (deString p.1.erase = some "name".toList ∧ ReadsStr p.2) ∨ (deString p.1.erase = some "values".toList ∧ ReadsComp p.2)

/-- `ReservesVariant d n`: reading a variant from `d` does. -/
inductive ReservesVariant (d : HDer) : Nat → Prop
  | variant {name e access n} : d.ask .any = .enum name e access → ReadsStr name → ReservesComp e n → ReservesVariant d n
  | some {e n} : d.ask .any = .some e → Reserves e n → ReservesVariant d n
  | map {closed hint before k e after n} : d.ask .any = .map closed hint (before ++ (k, e) :: after) → (∀ b ∈ before, ReadsField b) → deString k.erase = some "values".toList →
      ReservesComp e n → ReservesVariant d n

/-- `HasList d n`: somewhere in what `d` answers is a sequence or a map with `n` entries. -/
inductive HasList : HDer → Nat → Prop
  | seq {d a closed hint l} : d.ask a = .seq closed hint l → HasList d l.length
  | map {d a closed hint l} : d.ask a = .map closed hint l → HasList d l.length
  | element {d a closed hint l e n} : d.ask a = .seq closed hint l → e ∈ l → HasList e n → HasList d n
  | entry {d a closed hint l p n} : d.ask a = .map closed hint l → p ∈ l → HasList p.2 n → HasList d n
  | some {d a e n} : d.ask a = .some e → HasList e n → HasList d n
  | newtype {d a e n} : d.ask a = .newtype e → HasList e n → HasList d n
  | variant {d a name e access n} : d.ask a = .enum name e access → HasList e n → HasList d n

/-- The size hints in `d` are no larger than what is left, as those of serde's own deserializers. -/
inductive Honest : HDer → Prop
  | mk {d} (seqHint : ∀ a closed hint l, d.ask a = .seq closed hint l → hint.getD 0 ≤ l.length) (elements : ∀ a closed hint l, d.ask a = .seq closed hint l → ∀ e ∈ l, Honest e)
      (mapHint : ∀ a closed hint l, d.ask a = .map closed hint l → ∀ k, (hint k).getD 0 ≤ l.length - k) (entries : ∀ a closed hint l, d.ask a = .map closed hint l → ∀ p ∈ l, Honest p.2)
      (some : ∀ a e, d.ask a = .some e → Honest e) (newtype : ∀ a e, d.ask a = .newtype e → Honest e)
      (variant : ∀ a name e access, d.ask a = .enum name e access → Honest e) : Honest d

/-- `HasComposite v n`: `v` is, or has in it, a composite or a variant with `n` entries. -/
inductive HasComposite {T : Type} : Value T → Nat → Prop
  | composite {c x} : HasComposite (.mk (.composite c) x) c.len
  | variant {name c x} : HasComposite (.mk (.variant (.mk name c)) x) c.len
  | inComposite {c x w n} : w ∈ c.vals → HasComposite w n → HasComposite (.mk (.composite c) x) n
  | inVariant {name c x w n} : w ∈ c.vals → HasComposite w n → HasComposite (.mk (.variant (.mk name c)) x) n

end SV
