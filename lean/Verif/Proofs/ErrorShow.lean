import Verif.Model.ErrorShow
/-
Displayed numbers and texts can be told apart.
-/
namespace SV

theorem showNat_inj {n m : Nat} (h : showNat n = showNat m) : n = m := by
  have := congrArg (Nat.ofDigitChars 10 · 0) h
  simpa [showNat, Nat.ofDigitChars_ten_toDigits] using this

theorem digits_append_inj : ∀ {a b r t : Str} {c d : Char}, (∀ x ∈ a, x.isDigit = true) → (∀ x ∈ b, x.isDigit = true) → c.isDigit = false → d.isDigit = false →
    a ++ c :: r = b ++ d :: t → a = b ∧ c :: r = d :: t
  | [], [], _, _, _, _, _, _, _, _, h => ⟨rfl, h⟩
  | [], y :: b, _, _, _, _, _, hb, hc, _, h => by
    obtain ⟨rfl, -⟩ := List.cons.inj h
    rw [hb _ (List.mem_cons_self ..)] at hc; cases hc
  | x :: a, [], _, _, _, _, ha, _, _, hd, h => by
    obtain ⟨rfl, -⟩ := List.cons.inj h
    rw [ha _ (List.mem_cons_self ..)] at hd; cases hd
  | x :: a, y :: b, _, _, _, _, ha, hb, hc, hd, h => by
    obtain ⟨rfl, h'⟩ := List.cons.inj h
    obtain ⟨h1, h2⟩ := digits_append_inj (fun z hz => ha z (List.mem_cons_of_mem _ hz)) (fun z hz => hb z (List.mem_cons_of_mem _ hz)) hc hd h'
    exact ⟨by rw [h1], h2⟩

theorem showNat_append_inj {n m : Nat} {r t : Str} {c d : Char} (hc : c.isDigit = false) (hd : d.isDigit = false)
    (h : showNat n ++ c :: r = showNat m ++ d :: t) : n = m ∧ c :: r = d :: t := by
  have hx : ∀ n, ∀ x ∈ showNat n, x.isDigit = true := fun n x hx => Nat.isDigit_of_mem_toDigits (by decide) (by decide) hx
  obtain ⟨h1, h2⟩ := digits_append_inj (hx n) (hx m) hc hd h
  exact ⟨showNat_inj h1, h2⟩

/-- Two texts differ at a position that both have. -/
def apart : Str → Str → Bool
  | c :: a, d :: b => c != d || apart a b
  | _, _ => false

theorem apart_append (a : Str) : ∀ (b r t : Str), apart a b = true → a ++ r ≠ b ++ t := by
  induction a with
  | nil => intro b r t h; simp [apart] at h
  | cons c a ih =>
    intro b r t h e
    cases b with
    | nil => simp [apart] at h
    | cons d b =>
      obtain ⟨rfl, e'⟩ := List.cons.inj e
      exact ih b r t (by simpa [apart] using h) e'

/-- The fixed part of the messages. -/
def heads : List Str := [
  "Expected a value".toList, "The first character in a field name should be alphabetic".toList,
  "Field name is not valid (it should begin with an alphabetical char and then consist only of alphanumeric chars)".toList,
  "Missing field separator; expected ".toList, "Missing closing '".toList, "Expected a single character".toList, "Expected an escape code to follow the '\\'".toList,
  "Expected a closing quote to match the opening quote at position ".toList, "Expected one or more digits".toList,
  "Failed to parse digits into an integer: number too large to fit in target type".toList,
  "Failed to parse digits into an integer: number too small to fit in target type".toList,
  "Expected a closing bracket ('>') to match the opening one at position ".toList, "Invalid character; expecting a 0 or 1".toList, "Custom error: ".toList]

theorem heads_apart : ∀ i j, i < 14 → j < 14 → i ≠ j → apart (heads.getD i []) (heads.getD j []) = true := by
  have : ∀ i j : Fin 14, i ≠ j → apart (heads.getD i []) (heads.getD j []) = true := by decide +kernel
  intro i j hi hj h
  exact this ⟨i, hi⟩ ⟨j, hj⟩ (by simpa [Fin.ext_iff] using h)

/-- Which of the fixed parts, and what follows it. -/
def ParseErrorKind.parts : ParseErrorKind → Nat × Str
  | .expectedValue => (0, [])
  | .invalidStartingCharacterInIdent => (1, [])
  | .invalidFieldName => (2, [])
  | .missingFieldSeparator c => (3, [c])
  | .expectedCloserToMatch c _ => (4, [c, '\''])
  | .charExpectedValidCharacter => (5, [])
  | .charExpectedValidEscapeCode => (6, [])
  | .charExpectedClosingQuoteToMatch n => (7, showNat n)
  | .strExpectedClosingQuoteToMatch n => (7, showNat n)
  | .strExpectedValidEscapeCode => (6, [])
  | .numExpectedDigit => (8, [])
  | .numPosOverflow => (9, [])
  | .numNegOverflow => (10, [])
  | .bitsExpectedClosingBracketToMatch n => (11, showNat n)
  | .bitsInvalidCharacter => (12, [])
  | .custom s => (13, s)

theorem display_parts (k : ParseErrorKind) : k.display = heads.getD k.parts.1 [] ++ k.parts.2 ∧ k.parts.1 < 14 := by
  cases k <;> exact ⟨rfl, Nat.le_of_ble_eq_true rfl⟩

theorem parts_inj {k l : ParseErrorKind} (h : k.display = l.display) : k.parts = l.parts := by
  obtain ⟨hk, hk'⟩ := display_parts k
  obtain ⟨hl, hl'⟩ := display_parts l
  rw [hk, hl] at h
  by_cases e : k.parts.1 = l.parts.1
  · rw [e] at h
    exact Prod.ext e (List.append_cancel_left h)
  · exact absurd h (apart_append _ _ _ _ (heads_apart _ _ hk' hl' e))

end SV
