import Verif.Proofs.DecCalls
import Verif.Props.Decode
import Verif.Props.Size
/-
C88: how much work decoding is, on right and wrong bytes.
-/
namespace SV

variable {Id Γ : Type}

/-- C88: when decoding succeeds then the decoder has been entered exactly once for each value in the result: nothing is decoded twice, or for nothing. -/
theorem C88_once (ctx : Id → Γ) (reg : Reg Id) (al : Nat → Bool) (t : Id) (bs r : List UInt8) (v : Value Γ) (h : decodeWith ctx reg al t bs = .ok (v, r)) :
    decodeCalls ctx reg al t bs = v.count := by
  obtain ⟨n, hn⟩ := decodeWith_eq.1 h
  rw [decodeCalls_eq hn]
  exact decCalls_ok reg al ctx n _ _ _ _ _ hn

/-- C88: the same for the tracing decoder. -/
theorem C88_once_traced (reg : Reg Id) (al : Nat → Bool) (t : Id) (bs r : List UInt8) (v : Value Id) (h : traceDecode reg al t bs = .ok (v, r)) :
    traceCalls reg al t bs = v.count := by
  have hp : decodeWith id reg al t bs = .ok (v.mapPrim unsigned, r) := C37_traced_then_plain reg al t bs r v h
  obtain ⟨n, hn⟩ := traceDecode_eq.1 h
  obtain ⟨m, hm⟩ := decodeWith_eq.1 hp
  have hn' := trN_mono reg al (Nat.le_max_left n m) _ _ _ _ _ hn
  have hm' := decN_mono reg al id (Nat.le_max_right n m) _ _ _ _ hm
  rw [traceCalls_eq hn', trCalls_same reg al id _ _ _ _ _ _ hn' nofun, decCalls_ok reg al id _ _ _ _ _ _ hm', mapPrim_count]

/-- C88: the same for fields. -/
theorem C88_once_fields (reg : Reg Id) (al : Nat → Bool) (fs : List (Field Id)) (bs r : List UInt8) (cs : Composite Id) (h : decodeCompositeAsFields reg al fs bs = (.ok cs, r)) :
    decodeFieldsCalls id reg al fs bs = (cs.vals.map Value.count).sum := by
  have hd : decodeFields id reg al fs bs = .ok (cs, r) := by
    unfold decodeCompositeAsFields at h
    split at h <;> cases h
    assumption
  obtain ⟨n, hn⟩ := decodeFields_eq.1 hd
  rw [decodeFieldsCalls_eq hn, groupCalls_ok (fun t bs v r h => decCalls_ok reg al id n _ _ _ _ _ h) hn]
  generalize cs.vals = vs
  induction vs with
  | nil => rfl
  | cons v vs ih => simp [valuesCount, ih]

/-- C88: whatever the bytes, and whether they are decoded or not: at a type in which there are finitely many types, and in which the elements of sequences and arrays cannot be had from no bytes, the
decoders are entered at most a constant times the number of bytes (plus one). -/
theorem C88_linear (reg : Reg Id) (t : Id) (hf : FinitelyMany reg t)
    (hs : ∀ u w, Reach reg t u → (reg.resolve u = some (.sequence w) ∨ ∃ n, reg.resolve u = some (.array w n)) → ∀ al x, decodeAsType reg al w [] ≠ .ok x) :
    ∃ C, ∀ al bs, (∀ (Γ : Type) (ctx : Id → Γ), decodeCalls ctx reg al t bs ≤ C * (bs.length + 1)) ∧ traceCalls reg al t bs ≤ C * (bs.length + 1) := by
  obtain ⟨R, W, -, hb⟩ := bounded_of_finite hf
  have free : ∀ u w, Reach reg t u → (reg.resolve u = some (.sequence w) ∨ ∃ n, reg.resolve u = some (.array w n)) →
      ∀ (Γ : Type) (ctx : Id → Γ) v, ¬ Scale reg False .u256 ctx false w v [] := by
    intro u w hu hr Γ ctx v h
    have h1 := (decodeWith_ok (al := fun _ => true) (fun _ => rfl) (r := [])).2 ⟨[], rfl, h⟩
    have h2 := decodeWith_map (fun _ => ()) reg (fun _ => true) ctx w []
    rw [List.nil_append] at h1
    rw [h1] at h2
    exact hs u w hu hr (fun _ => true) _ h2
  have plain : ∀ (Γ : Type) (ctx : Id → Γ) al n bs, decCalls reg al ctx n false t bs ≤ (frame W R + (2 * frame W (R + 1) + 8)) * (bs.length + 1) := by
    intro Γ ctx al n bs
    have hB := hb Γ ctx False .u256 (fun u w v hu hr => free u w hu hr Γ ctx v)
    have h0 := decCalls_le reg al ctx R W n false t bs hB
    have h1 := frame_le W (hB.rank t .self)
    have h2 : frame W R * 1 ≤ frame W R * (bs.length + 1) := Nat.mul_le_mul_left _ (by omega)
    have h3 : (2 * frame W (R + 1) + 8) * bs.length ≤ (2 * frame W (R + 1) + 8) * (bs.length + 1) := Nat.mul_le_mul_left _ (by omega)
    rw [Nat.add_mul]
    omega
  exact ⟨frame W R + (2 * frame W (R + 1) + 8), fun al bs => ⟨fun Γ ctx => plain Γ ctx al _ bs, Nat.le_trans (trCalls_le reg al id _ _ _ _ _) (plain Id id al _ bs)⟩⟩

/-- C88: the same for a list of fields. -/
theorem C88_linear_fields (reg : Reg Id) (fs : List (Field Id)) (hf : ∀ f ∈ fs, FinitelyMany reg f.id)
    (hs : ∀ f ∈ fs, ∀ u w, Reach reg f.id u → (reg.resolve u = some (.sequence w) ∨ ∃ n, reg.resolve u = some (.array w n)) → ∀ al x, decodeAsType reg al w [] ≠ .ok x) :
    ∃ C, ∀ (Γ : Type) (ctx : Id → Γ) al bs, decodeFieldsCalls ctx reg al fs bs ≤ C * (bs.length + 1) := by
  classical
  have hC : ∀ t ∈ fs.map (fun f => f.id), ∃ C, ∀ (Γ : Type) (ctx : Id → Γ) al n bs, decCalls reg al ctx n false t bs ≤ C * (bs.length + 1) := by
    intro t ht
    obtain ⟨f, hff, rfl⟩ := List.mem_map.1 ht
    obtain ⟨R, W, -, hb⟩ := bounded_of_finite (hf f hff)
    have free : ∀ u w, Reach reg f.id u → (reg.resolve u = some (.sequence w) ∨ ∃ n, reg.resolve u = some (.array w n)) →
        ∀ (Γ : Type) (ctx : Id → Γ) v, ¬ Scale reg False .u256 ctx false w v [] := by
      intro u w hu hr Γ ctx v h
      have h1 := (decodeWith_ok (al := fun _ => true) (fun _ => rfl) (r := [])).2 ⟨[], rfl, h⟩
      have h2 := decodeWith_map (fun _ => ()) reg (fun _ => true) ctx w []
      rw [List.nil_append] at h1
      rw [h1] at h2
      exact hs f hff u w hu hr (fun _ => true) _ h2
    refine ⟨frame W R + (2 * frame W (R + 1) + 8), fun Γ ctx al n bs => ?_⟩
    have hB := hb Γ ctx False .u256 (fun u w v hu hr => free u w hu hr Γ ctx v)
    have h0 := decCalls_le reg al ctx R W n false f.id bs hB
    have h1 := frame_le W (hB.rank f.id .self)
    have h2 : frame W R * 1 ≤ frame W R * (bs.length + 1) := Nat.mul_le_mul_left _ (by omega)
    have h3 : (2 * frame W (R + 1) + 8) * bs.length ≤ (2 * frame W (R + 1) + 8) * (bs.length + 1) := Nat.mul_le_mul_left _ (by omega)
    rw [Nat.add_mul]
    omega
  refine ⟨((fs.map (fun f => f.id)).map (fun t => if h : t ∈ fs.map (fun f => f.id) then (hC t h).choose else 0)).sum, fun Γ ctx al bs => ?_⟩
  unfold decodeFieldsCalls groupCalls
  simp only
  split
  · refine loopCalls_sum _ (fun t ht bs => ?_) bs
    rw [dif_pos ht]
    exact (hC t ht).choose_spec Γ ctx al _ bs
  · exact Nat.zero_le _

/-- C88: the tracing decoder is never entered more often than the plain one, and as often as that unless there are too many values for it somewhere. -/
theorem C88_traced (ctx : Id → Γ) (reg : Reg Id) (al : Nat → Bool) (t : Id) (bs : List UInt8) :
    traceCalls reg al t bs ≤ decodeCalls ctx reg al t bs ∧
    ((∀ path soFar, traceDecode reg al t bs ≠ .err (.fromVisitor path soFar .tooManyEntries)) → traceDecode reg al t bs ≠ .err (.fromDecode .tooManyEntries) →
      traceCalls reg al t bs = decodeCalls ctx reg al t bs) := by
  obtain ⟨n, hn⟩ := traceDecode_eq.1 (rfl : traceDecode reg al t bs = _)
  obtain ⟨m, hm⟩ := decodeWith_eq.1 (rfl : decodeWith ctx reg al t bs = _)
  have hn' := trN_mono reg al (Nat.le_max_left n m) _ _ _ _ _ hn
  have hm' := decN_mono reg al ctx (Nat.le_max_right n m) _ _ _ _ hm
  rw [traceCalls_eq hn', decodeCalls_eq hm']
  refine ⟨trCalls_le reg al ctx _ _ _ _ _, fun h1 h2 => trCalls_same reg al ctx _ _ _ _ _ _ hn' ?_⟩
  intro e he hw
  cases e with
  | fromDecode e => exact h2 (by rw [he]; congr 2)
  | fromVisitor p v e => exact h1 p v (by rw [he]; congr 2)

/-- C88: where elements can be had from no bytes there is no such bound: nine bytes can make the decoder be entered more than `n` times, for any `n` below 2^64. -/
theorem C88_free_elements (reg : Reg Id) (t w : Id) (ht : reg.resolve t = some (.sequence w)) (x : Value Unit)
    (hw : decodeAsType reg (fun _ => true) w [] = .ok (x, [])) (n : Nat) (hn : n < 2 ^ 64) :
    ∃ bs, bs.length ≤ 9 ∧ n < decodeCalls (fun _ => ()) reg (fun _ => true) t bs := by
  obtain ⟨bs, h1, h2⟩ := C60_free_elements reg t w ht x hw n hn
  refine ⟨bs, h1, ?_⟩
  rw [C88_once (fun _ => ()) reg _ t bs _ _ h2]
  have hx : 1 ≤ x.count := by
    rcases x with ⟨d, _⟩
    rcases d with ⟨⟨⟩⟩ | ⟨⟨_, ⟨⟩⟩⟩ | _ | _ <;> simp [Value.count] <;> omega
  have hr : ∀ n, n ≤ valuesCount (List.replicate n x) := by
    intro n
    induction n with
    | zero => exact Nat.zero_le _
    | succ n ih => simp only [List.replicate_succ, valuesCount]; omega
  have := hr n
  simp only [Value.unnamedComposite, Composite.mkUnnamed, Value.count]
  omega

/-- C88 on a right and on a wrong list: `Cons(Cons(Nil))` are three values and three calls, with and without what follows; if the third index is unknown then these are three calls too, and what comes
after it is not looked at. -/
example : decodeCalls (fun _ => ()) exList (fun _ => true) () [1, 1, 0] = 3 ∧ decodeCalls (fun _ => ()) exList (fun _ => true) () [1, 1, 0, 1, 1, 1] = 3 ∧
    decodeCalls (fun _ => ()) exList (fun _ => true) () [1, 1, 9, 1, 1, 1] = 3 ∧ traceCalls exList (fun _ => true) () [1, 1, 9, 1, 1, 1] = 3 :=
  ⟨decodeCalls_eq (n := 3) (rfl : _ = some _), decodeCalls_eq (n := 3) (rfl : _ = some _), decodeCalls_eq (n := 3) (rfl : _ = some _), traceCalls_eq (n := 3) (rfl : _ = some _)⟩

/-- Three `()`s from a sequence of them, out of one byte, are four calls. -/
example : decodeCalls (fun _ => ()) exUnits (fun _ => true) 0 [12] = 4 := decodeCalls_eq (n := 2) (rfl : _ = some _)

/-- If there is no memory for them then there is one call. -/
example : decodeCalls (fun _ => ()) exUnits (fun n => n < 3) 0 [12] = 1 := decodeCalls_eq (n := 2) (rfl : _ = some _)

end SV
