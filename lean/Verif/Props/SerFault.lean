import Verif.Proofs.SerFault
/-
C70: the error of `to_value` is about the first thing that cannot be serialized.
-/
namespace SV

/-- C70: `to_value` fails exactly with the first fault in the order of writing. -/
theorem C70_first_fault (s : Ser) (e : SerErr) : s.toValue = .error e ↔ FirstFault s e := ⟨error_firstFault s e, firstFault_error⟩

/-- C70: data has a value or a first fault, not both, and only one. -/
theorem C70_one_fault (s : Ser) : ((∃ v, StandsFor s v) ↔ ¬ ∃ e, FirstFault s e) ∧ ∀ e e', FirstFault s e → FirstFault s e' → e = e' := by
  constructor
  · constructor
    · rintro ⟨v, h⟩ ⟨e, h'⟩
      rw [← toValue_ok_iff] at h
      rw [← C70_first_fault, h] at h'
      cases h'
    · intro h
      cases hs : s.toValue with
      | ok v => exact ⟨v, toValue_ok_iff.1 hs⟩
      | error e => exact absurd ⟨e, error_firstFault s e hs⟩ h
  · intro e e' h h'
    have := (firstFault_error h).symm.trans (firstFault_error h')
    exact Except.error.inj this

/-- C70: nothing after the fault matters: if two data agree in their parts up to one that is not all right, the error is the same. -/
theorem C70_rest_does_not_matter (s s' : Ser) (i : Nat) (p : Part) (same : ∀ j, j ≤ i → (partsOf s)[j]? = (partsOf s')[j]?)
    (part : (partsOf s)[i]? = some p) (bad : ¬ p.Fine) : ∃ e, s.toValue = .error e ∧ s'.toValue = .error e := by
  have ⟨e, k, q, h1, h2, h3⟩ : ∃ e, ∃ (k : Nat) (q : Part), (partsOf s)[k]? = some q ∧ q.run = .error e ∧ ∀ (j : Nat) r, j < k → (partsOf s)[j]? = some r → r.Fine := by
    cases h : runParts (partsOf s) with
    | error e => exact ⟨e, runParts_error.1 h⟩
    | ok u => exact absurd (runParts_ok h p (List.mem_of_getElem? part)) bad
  have hk : k ≤ i := by
    rcases Nat.lt_or_ge i k with h | h
    · exact absurd (h3 i p h part) bad
    · exact h
  refine ⟨e, (toValue_parts s e).2 (.inr (runParts_error.2 ⟨k, q, h1, h2, h3⟩)), (toValue_parts s' e).2 (.inr (runParts_error.2 ⟨k, q, ?_, h2, ?_⟩))⟩
  · rw [← same k hk]; exact h1
  · intro j r hj hr
    rw [← same j (by omega)] at hr
    exact h3 j r hj hr

/-- C70: an error made by an implementation of `Serialize` is passed on with its text. -/
theorem C70_own_errors (msg : Str) : (Ser.fail msg).toValue = .error (.custom msg) ∧ (SerErr.custom msg).display = "Custom error: ".toList ++ msg := ⟨rfl, rfl⟩

/-- The first letter of a message. -/
theorem display_head (e : SerErr) : e.display.head? = some (match e with | .custom _ => 'C' | .floats => 'F' | .mapKey => 'M') := by
  cases e with
  | custom m => rfl
  | floats => rfl
  | mapKey => rfl

/-- C70: what is said about floats and about keys of maps. -/
theorem C70_texts (x : Ser) (v : Value Unit) (hx : StandsFor x v) (hk : ∀ n, ¬ KeyName v n) :
    (∃ e, Ser.f64.toValue = .error e ∧ Ser.f32.toValue = .error e ∧
      e.display = "Floats do not have a SCALE compatible representation, and so cannot be serialized to Values".toList) ∧
    ∀ y es, ∃ e, (Ser.map ((x, y) :: es)).toValue = .error e ∧ e.display = "Map keys must be strings or string-like".toList :=
  ⟨⟨_, rfl, rfl, rfl⟩, fun _ _ => ⟨.mapKey, (C70_first_fault _ _).2 (.key (i := 0) rfl (fun j _ hj => absurd hj (Nat.not_lt_zero j)) hx hk), rfl⟩⟩

/-- C70: a map with `()` as a key. -/
example : StandsFor .unit (Value.unnamedComposite []) ∧ ∀ n, ¬ KeyName (Value.unnamedComposite []) n :=
  ⟨.unit, fun _ h => by cases h⟩

/-- C70: two errors have the same text only if they are the same. -/
theorem C70_messages (e e' : SerErr) : e.display = e'.display ↔ e = e' := by
  refine ⟨fun h => ?_, fun h => by rw [h]⟩
  have h1 := display_head e
  rw [h, display_head e', Option.some.injEq] at h1
  cases e with
  | custom m =>
    cases e' with
    | custom m' => exact congrArg SerErr.custom (List.append_cancel_left (as := "Custom error: ".toList) h.symm).symm
    | floats => simp at h1
    | mapKey => simp at h1
  | floats =>
    cases e' with
    | custom m' => simp at h1
    | floats => rfl
    | mapKey => simp at h1
  | mapKey =>
    cases e' with
    | custom m' => simp at h1
    | floats => simp at h1
    | mapKey => rfl

/-! ### Cases -/

/-- Of a float and a bad key the one that is written first counts; the value of an entry is looked at after its key. -/
example : FirstFault (.seq [.bool true, .map [(.str ['a'], .f32), (.unit, .unit)]]) .floats ∧
    FirstFault (.seq [.bool true, .map [(.unit, .f32)]]) .mapKey ∧
    FirstFault (.struct [(['x'], .some (.fail ['n', 'o'])), (['y'], .f64)]) (.custom ['n', 'o']) :=
  ⟨(C70_first_fault _ _).1 rfl, (C70_first_fault _ _).1 rfl, (C70_first_fault _ _).1 rfl⟩

end SV
