import Verif.Spec.SerFault
import Verif.Proofs.Serde
/-
Lemmas for C70.
-/
namespace SV

/-- What becomes of a part. -/
def Part.run : Part → Except SerErr Unit
  | .key s => s.toValue >>= fun v => (keyOf v).map (fun _ => ())
  | .val s => s.toValue.map (fun _ => ())

/-- Parts one after another. -/
def runParts : List Part → Except SerErr Unit
  | [] => .ok ()
  | p :: ps => p.run >>= fun _ => runParts ps

theorem part_fine (p : Part) : p.run = .ok () ↔ p.Fine := by
  cases p with
  | key s =>
    simp only [Part.run, Part.Fine, bind_ok]
    constructor
    · rintro ⟨v, h1, h2⟩
      cases hk : keyOf v with
      | error e => rw [hk] at h2; cases h2
      | ok n => exact ⟨v, n, toValue_ok_iff.1 h1, keyOf_ok.1 hk⟩
    · rintro ⟨v, n, h1, h2⟩
      exact ⟨v, toValue_ok_iff.2 h1, by rw [keyOf_ok.2 h2]; rfl⟩
  | val s =>
    simp only [Part.run, Part.Fine]
    constructor
    · intro h
      cases hs : s.toValue with
      | error e => rw [hs] at h; cases h
      | ok v => exact ⟨v, toValue_ok_iff.1 hs⟩
    · rintro ⟨v, h⟩
      rw [toValue_ok_iff.2 h]; rfl

theorem runParts_error {ps : List Part} {e : SerErr} : runParts ps = .error e ↔
    ∃ (i : Nat) (p : Part), ps[i]? = some p ∧ p.run = .error e ∧ ∀ (j : Nat) q, j < i → ps[j]? = some q → q.Fine := by
  induction ps with
  | nil => simp [runParts]
  | cons p ps ih =>
    rw [runParts, bind_error, ih]
    constructor
    · rintro (h | ⟨_, h1, i, q, h2, h3, h4⟩)
      · exact ⟨0, p, rfl, h, by simp⟩
      · refine ⟨i + 1, q, by simpa using h2, h3, ?_⟩
        intro j r hj hr
        cases j with
        | zero => simp at hr; subst hr; exact (part_fine p).1 h1
        | succ j => exact h4 j r (by omega) (by simpa using hr)
    · rintro ⟨i, q, h2, h3, h4⟩
      cases i with
      | zero => simp at h2; subst h2; exact .inl h3
      | succ i => exact .inr ⟨(), (part_fine p).2 (h4 0 p (by omega) rfl), i, q, by simpa using h2, h3, fun j r hj hr => h4 (j + 1) r (by omega) (by simpa using hr)⟩

theorem runParts_ok {ps : List Part} {u : Unit} (h : runParts ps = .ok u) : ∀ p ∈ ps, p.Fine := by
  induction ps with
  | nil => simp
  | cons p ps ih =>
    rw [runParts, bind_ok] at h
    obtain ⟨_, h1, h2⟩ := h
    exact List.forall_mem_cons.2 ⟨(part_fine p).1 h1, ih h2⟩

theorem map_error {A B : Type} {x : Except SerErr A} {f : A → B} {e : SerErr} : x.map f = .error e ↔ x = .error e := by
  cases x <;> simp [Except.map]

theorem runParts_values (xs : List Ser) (e : SerErr) : toValues xs = .error e ↔ runParts (xs.map .val) = .error e := by
  induction xs with
  | nil => simp [toValues, runParts]
  | cons x xs ih =>
    rw [toValues, List.map_cons, runParts]
    simp only [bind_error, Part.run, map_error, ← ih]
    constructor
    · rintro (h | ⟨v, h1, h | ⟨_, _, h⟩⟩)
      · exact .inl h
      · exact .inr ⟨(), by rw [h1]; rfl, h⟩
      · cases h
    · rintro (h | ⟨_, h1, h⟩)
      · exact .inl h
      · cases hx : x.toValue with
        | error e => rw [hx] at h1; cases h1
        | ok v => exact .inr ⟨v, rfl, .inl h⟩

theorem runParts_fields (xs : List (Str × Ser)) (e : SerErr) : toFields xs = .error e ↔ runParts (xs.map (fun f => .val f.2)) = .error e := by
  induction xs with
  | nil => simp [toFields, runParts]
  | cons x xs ih =>
    obtain ⟨k, x⟩ := x
    rw [toFields, List.map_cons, runParts]
    simp only [bind_error, Part.run, map_error, ← ih]
    constructor
    · rintro (h | ⟨v, h1, h | ⟨_, _, h⟩⟩)
      · exact .inl h
      · exact .inr ⟨(), by rw [h1]; rfl, h⟩
      · cases h
    · rintro (h | ⟨_, h1, h⟩)
      · exact .inl h
      · cases hx : x.toValue with
        | error e => rw [hx] at h1; cases h1
        | ok v => exact .inr ⟨v, rfl, .inl h⟩

theorem runParts_entries (xs : List (Ser × Ser)) (e : SerErr) :
    toEntries xs = .error e ↔ runParts (xs.flatMap (fun f => [.key f.1, .val f.2])) = .error e := by
  induction xs with
  | nil => simp [toEntries, runParts]
  | cons x xs ih =>
    obtain ⟨k, x⟩ := x
    rw [toEntries, List.flatMap_cons, List.cons_append, List.cons_append, List.nil_append, runParts, runParts]
    simp only [bind_error, Part.run, map_error, ← ih, bind_ok]
    constructor
    · rintro (h | ⟨v, h1, h | ⟨n, h2, h | ⟨w, h3, h | ⟨_, _, h⟩⟩⟩⟩)
      · exact .inl (.inl h)
      · exact .inl (.inr ⟨v, h1, h⟩)
      · exact .inr ⟨(), ⟨v, h1, by rw [h2]; rfl⟩, .inl h⟩
      · exact .inr ⟨(), ⟨v, h1, by rw [h2]; rfl⟩, .inr ⟨(), by rw [h3]; rfl, h⟩⟩
      · cases h
    · rintro ((h | ⟨v, h1, h⟩) | ⟨_, ⟨v, h1, h2⟩, h⟩)
      · exact .inl h
      · exact .inr ⟨v, h1, .inl h⟩
      · cases hn : keyOf v with
        | error e => rw [hn] at h2; cases h2
        | ok n =>
          refine .inr ⟨v, h1, .inr ⟨n, hn, ?_⟩⟩
          rcases h with h | ⟨_, h3, h⟩
          · exact .inl h
          · cases hx : x.toValue with
            | error e => rw [hx] at h3; cases h3
            | ok w => exact .inr ⟨w, rfl, .inl h⟩

theorem runParts_one (x : Ser) (e : SerErr) : x.toValue = .error e ↔ runParts [.val x] = .error e := by
  simp only [runParts, bind_error, Part.run, map_error]
  constructor
  · exact .inl
  · rintro (h | ⟨_, _, h⟩)
    · exact h
    · cases h

/-- Leaves that are faults by themselves. -/
def LeafFault (s : Ser) (e : SerErr) : Prop := (s = .f32 ∨ s = .f64) ∧ e = .floats ∨ ∃ m, s = .fail m ∧ e = .custom m

theorem toValue_parts (s : Ser) (e : SerErr) : s.toValue = .error e ↔ LeafFault s e ∨ runParts (partsOf s) = .error e := by
  have wrap : ∀ {A : Type} (x : Except SerErr A) (f : A → Value Unit), (x >>= fun a => Except.ok (f a)) = .error e ↔ x = .error e := by
    intro A x f; cases x <;> simp [bind, Except.bind]
  cases s with
  | some x => rw [Ser.toValue, wrap, runParts_one]; simp [LeafFault, partsOf]
  | newtypeStruct x => rw [Ser.toValue, wrap, runParts_one]; simp [LeafFault, partsOf]
  | newtypeVariant n x => rw [Ser.toValue, wrap, runParts_one]; simp [LeafFault, partsOf]
  | seq x => rw [Ser.toValue, wrap, runParts_values]; simp [LeafFault, partsOf]
  | tuple x => rw [Ser.toValue, wrap, runParts_values]; simp [LeafFault, partsOf]
  | tupleStruct x => rw [Ser.toValue, wrap, runParts_values]; simp [LeafFault, partsOf]
  | tupleVariant n x => rw [Ser.toValue, wrap, runParts_values]; simp [LeafFault, partsOf]
  | map x => rw [Ser.toValue, wrap, runParts_entries]; simp [LeafFault, partsOf]
  | struct x => rw [Ser.toValue, wrap, runParts_fields]; simp [LeafFault, partsOf]
  | structVariant n x => rw [Ser.toValue, wrap, runParts_fields]; simp [LeafFault, partsOf]
  | f32 => simp [Ser.toValue, LeafFault, partsOf, runParts, eq_comm]
  | f64 => simp [Ser.toValue, LeafFault, partsOf, runParts, eq_comm]
  | fail m => simp [Ser.toValue, SerErr.ofCustom, LeafFault, partsOf, runParts, eq_comm]
  | _ => simp [Ser.toValue, LeafFault, partsOf, runParts]

theorem part_run_error {p : Part} {e : SerErr} (h : p.run = .error e) :
    (∃ x, p = .val x ∧ x.toValue = .error e) ∨ (∃ x, p = .key x ∧ x.toValue = .error e) ∨
      ∃ x v, p = .key x ∧ StandsFor x v ∧ (∀ n, ¬ KeyName v n) ∧ e = .mapKey := by
  cases p with
  | val s => exact .inl ⟨s, rfl, map_error.1 h⟩
  | key s =>
    simp only [Part.run, bind_error, map_error] at h
    rcases h with h | ⟨v, h1, h⟩
    · exact .inr (.inl ⟨s, rfl, h⟩)
    · obtain ⟨rfl, hn⟩ := keyOf_error.1 h
      exact .inr (.inr ⟨s, v, rfl, toValue_ok_iff.1 h1, hn, rfl⟩)

theorem firstFault_error {s : Ser} {e : SerErr} (h : FirstFault s e) : s.toValue = .error e := by
  induction h with
  | f32 => rfl
  | f64 => rfl
  | fail m => rfl
  | inVal part before _ ih =>
    exact (toValue_parts _ _).2 (.inr (runParts_error.2 ⟨_, _, part, map_error.2 ih, before⟩))
  | inKey part before _ ih =>
    refine (toValue_parts _ _).2 (.inr (runParts_error.2 ⟨_, _, part, ?_, before⟩))
    simp [Part.run, ih, bind, Except.bind]
  | key part before rep bad =>
    refine (toValue_parts _ _).2 (.inr (runParts_error.2 ⟨_, _, part, ?_, before⟩))
    simp only [Part.run, bind_error, map_error]
    exact .inr ⟨_, toValue_ok_iff.2 rep, keyOf_error.2 ⟨rfl, bad⟩⟩

theorem error_firstFault (s : Ser) : ∀ e, s.toValue = .error e → FirstFault s e := by
  have step : ∀ s : Ser, (∀ x, .val x ∈ partsOf s ∨ .key x ∈ partsOf s → ∀ e, x.toValue = .error e → FirstFault x e) → ∀ e, s.toValue = .error e → FirstFault s e := by
    intro s ih e h
    rcases (toValue_parts s e).1 h with (⟨rfl | rfl, rfl⟩ | ⟨m, rfl, rfl⟩) | h
    · exact .f32
    · exact .f64
    · exact .fail m
    · obtain ⟨i, p, h1, h2, h3⟩ := runParts_error.1 h
      rcases part_run_error h2 with ⟨x, rfl, hx⟩ | ⟨x, rfl, hx⟩ | ⟨x, v, rfl, hx, hn, rfl⟩
      · exact .inVal h1 h3 (ih x (.inl (List.mem_of_getElem? h1)) e hx)
      · exact .inKey h1 h3 (ih x (.inr (List.mem_of_getElem? h1)) e hx)
      · exact .key h1 h3 hx hn
  induction s using Ser.ind with
  | bool | num | f32 | f64 | char | str | bytes | none | unit | unitStruct | unitVariant | fail => exact step _ (by simp [partsOf])
  | some x ih => exact step _ (by simpa [partsOf] using ih)
  | newtypeStruct x ih => exact step _ (by simpa [partsOf] using ih)
  | newtypeVariant n x ih => exact step _ (by simpa [partsOf] using ih)
  | seq x ih => exact step _ (by simpa [partsOf] using ih)
  | tuple x ih => exact step _ (by simpa [partsOf] using ih)
  | tupleStruct x ih => exact step _ (by simpa [partsOf] using ih)
  | tupleVariant n x ih => exact step _ (by simpa [partsOf] using ih)
  | map x ih =>
    refine step _ ?_
    intro y hy
    simp only [partsOf, List.mem_flatMap, List.mem_cons, reduceCtorEq, Part.val.injEq, Part.key.injEq, List.not_mem_nil, or_false, false_or] at hy
    rcases hy with ⟨p, hp, rfl⟩ | ⟨p, hp, rfl⟩
    · exact (ih p hp).2
    · exact (ih p hp).1
  | struct x ih =>
    refine step _ ?_
    intro y hy
    simp only [partsOf, List.mem_map, Part.val.injEq, reduceCtorEq, and_false, exists_false, or_false] at hy
    obtain ⟨p, hp, rfl⟩ := hy
    exact ih p hp
  | structVariant n x ih =>
    refine step _ ?_
    intro y hy
    simp only [partsOf, List.mem_map, Part.val.injEq, reduceCtorEq, and_false, exists_false, or_false] at hy
    obtain ⟨p, hp, rfl⟩ := hy
    exact ih p hp

end SV
