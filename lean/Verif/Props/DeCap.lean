import Verif.Proofs.DeCap
/-
C93: memory reserved for size hints when values are read.
-/
namespace SV

variable {T : Type}

/-- What both theorems below say of an outcome. -/
theorem Tied.claim {A : Type} {al : Nat → Bool} {o : Out Unit A} {o' : Option A} {R : Nat → Prop} (h : Tied al o o' R) :
    (o = .panic ↔ ∃ n, R n ∧ al n = false) ∧ (o ≠ .panic → o = Out.ofOption o') := by
  rcases h with ⟨h, n, hn, ha⟩ | ⟨h, hn⟩
  · exact ⟨⟨fun _ => ⟨n, hn, ha⟩, fun _ => h⟩, fun hp => absurd h hp⟩
  · have hp : o ≠ .panic := by rw [h]; cases o' <;> intro h <;> cases h
    refine ⟨⟨fun h => absurd h hp, ?_⟩, fun _ => h⟩
    rintro ⟨n, hr, ha⟩
    rw [hn n hr] at ha; cases ha

/-- C93: reading a value panics exactly when memory cannot be reserved for some number of entries that it reserves memory for; otherwise it ends as with unlimited memory. -/
theorem C93_value (al : Nat → Bool) (d : HDer) :
    (deValueH al d = .panic ↔ ∃ n, Reserves d n ∧ al n = false) ∧ (deValueH al d ≠ .panic → deValueH al d = Out.ofOption (deValue d.erase)) := (tied_all al d).1.claim

/-- C93: so does reading a composite, -/
theorem C93_composite (al : Nat → Bool) (d : HDer) :
    (deCompositeH al d = .panic ↔ ∃ n, ReservesComp d n ∧ al n = false) ∧ (deCompositeH al d ≠ .panic → deCompositeH al d = Out.ofOption (deComposite d.erase)) := (tied_all al d).2.claim

/-- C93: and a variant. -/
theorem C93_variant (al : Nat → Bool) (d : HDer) :
    (deVariantH al d = .panic ↔ ∃ n, ReservesVariant d n ∧ al n = false) ∧ (deVariantH al d ≠ .panic → deVariantH al d = Out.ofOption (deVariant d.erase)) := (tied_variant al d).claim

/-- C93: a size hint is believed: an empty sequence that claims to have `n` elements reads as the empty composite if memory can be reserved for `n` values, and panics otherwise. -/
theorem C93_claims (al : Nat → Bool) (n : Nat) (f : Hint → HReply) (c : Bool) (hf : f .any = .seq c (some n) []) :
    deValueH al (.mk f) = (if al n then .ok (.mk (.composite (.unnamed [])) ()) else .panic) ∧ deCompositeH al (.mk f) = (if al n then .ok (.unnamed []) else .panic) := by
  rw [deValueH, deCompositeH, hf, deDefH, deCompH, deValuesH]
  cases h : al n <;> simp [h]

/-- The variants' counterpart of `honest_reserves`. -/
theorem honest_variant {d : HDer} (h : Honest d) {n : Nat} (hr : ReservesVariant d n) : ∃ m, n ≤ m ∧ HasList d m := by
  cases h with
  | mk seqHint elements mapHint entries some newtype variant =>
    cases hr with
    | variant h _ hr => obtain ⟨m, hm, hl⟩ := honest_reserves _ (variant _ _ _ _ h) n (.inr hr); exact ⟨m, hm, .variant h hl⟩
    | some h hr => obtain ⟨m, hm, hl⟩ := honest_reserves _ (some _ _ h) n (.inl hr); exact ⟨m, hm, .some h hl⟩
    | @map _ _ before k e after _ h _ _ hr =>
      obtain ⟨m, hm, hl⟩ := honest_reserves e (entries _ _ _ _ h (k, e) (by simp)) n (.inr hr)
      exact ⟨m, hm, .entry (p := (k, e)) h (by simp) hl⟩

/-- C93: when no size hint is larger than what is left, memory for as many entries as the longest list has is enough. -/
theorem C93_honest (al : Nat → Bool) (d : HDer) (hd : Honest d) (ha : ∀ n m, n ≤ m → HasList d m → al n = true) :
    deValueH al d = Out.ofOption (deValue d.erase) ∧ deCompositeH al d = Out.ofOption (deComposite d.erase) ∧ deVariantH al d = Out.ofOption (deVariant d.erase) := by
  refine ⟨(C93_value al d).2 fun hp => ?_, (C93_composite al d).2 fun hp => ?_, (C93_variant al d).2 fun hp => ?_⟩
  · obtain ⟨n, hn, hf⟩ := (C93_value al d).1.1 hp
    obtain ⟨m, hm, hl⟩ := honest_reserves d hd n (.inl hn)
    rw [ha n m hm hl] at hf; cases hf
  · obtain ⟨n, hn, hf⟩ := (C93_composite al d).1.1 hp
    obtain ⟨m, hm, hl⟩ := honest_reserves d hd n (.inr hn)
    rw [ha n m hm hl] at hf; cases hf
  · obtain ⟨n, hn, hf⟩ := (C93_variant al d).1.1 hp
    obtain ⟨m, hm, hl⟩ := honest_variant hd hn
    rw [ha n m hm hl] at hf; cases hf

/-- C93: the hints of serde's own deserializers, which values use, are of this kind; and every deserializer without hints has these. -/
theorem C93_sized (d : Der) : d.sized.erase = d ∧ Honest d.sized := ⟨sized_erase_all d, sized_honest d⟩

/-- C93: reading a value from a value reserves no more than the longest composite or variant in it has entries. -/
theorem C93_from_value (al : Nat → Bool) (v : Value T) (ha : ∀ n m, n ≤ m → HasComposite v m → al n = true) : deValueH al v.der.sized = Out.ofOption (deValue v.der) := by
  rw [show deValue v.der = deValue v.der.sized.erase by rw [sized_erase_all]]
  refine (C93_value al _).2 fun hp => ?_
  obtain ⟨n, hn, hf⟩ := (C93_value al _).1.1 hp
  obtain ⟨m, hm, hl⟩ := value_reserves v n hn
  rw [ha n m hm hl] at hf; cases hf

/-- C93: and it does reserve as many as the value itself has. -/
theorem C93_from_value_reserves (vs : List (Value T)) (x : T) : Reserves (Value.mk (.composite (.unnamed vs)) x).der.sized vs.length := by
  have h : (Value.mk (.composite (.unnamed vs)) x).der.sized.ask .any = .seq false (some (valDers vs).length) (sizeAll (valDers vs)) := rfl
  have := Reserves.seq h
  rwa [valDers_map, List.length_map] at this

/-! ### Concrete cases -/

/-- A number as deserializer. -/
def hNum (n : Num) : HDer := .mk fun _ => .num n
def hSeq (hint : Option Nat) (l : List HDer) : HDer := .mk fun _ => .seq false hint l
def hStr (s : Str) : HDer := .mk fun _ => .str s
def hMap (hint : Option Nat) (l : List (HDer × HDer)) : HDer := .mk fun _ => .map false (fun k => hint.map (· - k)) l

def hOne : HDer := hNum ⟨.u8, 1, by decide, by decide⟩

/-- A nested claim is reached when all before it can be read, -/
example : Reserves (hSeq none [hOne, hSeq (some 1000000) []]) 1000000 :=
  .element (before := [hOne]) (e := hSeq (some 1000000) []) (after := []) rfl (by intro b hb; simp at hb; subst hb; exact ⟨_, rfl⟩) (.seq (hint := some 1000000) rfl)
/-- so this reading panics where memory for a million values cannot be reserved; -/
example : deValueH (· < 1000) (hSeq none [hOne, hSeq (some 1000000) []]) = .panic := rfl
/-- not behind something that cannot be read. -/
example : deValueH (· < 1000) (hSeq none [.mk fun _ => .float, hSeq (some 1000000) []]) = .err () := rfl
/-- The first entry of a map is not counted for values, but is for composites. -/
example : deValueH (· < 3) (hMap (some 3) [(hStr "a".toList, hOne)]) ≠ .panic ∧ deCompositeH (· < 3) (hMap (some 3) [(hStr "a".toList, hOne)]) = .panic :=
  ⟨(by intro h; cases h), rfl⟩
/-- An empty map, and bit sequences, reserve nothing as values. -/
example : deValueH (fun _ => false) (hMap (some 1000000) []) = .ok (.mk (.composite (.named [])) ()) := rfl
/-- The fields of a variant count. -/
example : deVariantH (· < 5) (hMap none [(hStr "name".toList, hStr "A".toList), (hStr "values".toList, hSeq (some 7) [])]) = .panic := rfl
example : ReservesVariant (hMap none [(hStr "name".toList, hStr "A".toList), (hStr "values".toList, hSeq (some 7) [])]) 7 :=
  .map (before := [(hStr "name".toList, hStr "A".toList)]) (k := hStr "values".toList) (e := hSeq (some 7) []) (after := []) rfl
    (by intro b hb; simp at hb; subst hb; exact .inl ⟨rfl, _, rfl⟩) rfl (.seq (hint := some 7) rfl)

/-- A value with two composites in it. -/
def capValue : Value Unit := .mk (.composite (.unnamed [.mk (.composite (.named [])) (), .mk (.primitive (.bool true)) ()])) ()

example : HasComposite capValue 2 ∧ HasComposite capValue 0 := ⟨.composite, .inComposite (w := .mk (.composite (.named [])) ()) (by simp [Composite.vals]) .composite⟩
/-- With room for two entries it is read. -/
example : deValueH (· ≤ 2) capValue.der.sized = .ok capValue := rfl
example : deValueH (· ≤ 1) capValue.der.sized = .panic := rfl

end SV
