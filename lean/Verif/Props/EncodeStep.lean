import Verif.Proofs.EncodeStep
import Verif.Props.Emit
/-
C68: the rules of encoding are complete.
-/
namespace SV

variable {Id Γ : Type}

/-- C68: a value encodes at a type to bytes exactly when one of the rules of Spec/EncodeStep says so. -/
theorem C68_rules (reg : Reg Id) (cc : Bool) (v : Value Γ) (hs : Sized v) (t : Id) (bs : List UInt8) :
    Okay (v.encode reg cc t) bs ↔ StepBy reg cc (fun v t bs => Okay (v.encode reg cc t) bs) v t bs := step_enc hs

/-- C68: and it fails exactly when there is no rule. -/
theorem C68_fails (reg : Reg Id) (cc : Bool) (v : Value Γ) (hs : Sized v) (t : Id) :
    Fails (v.encode reg cc t) ↔ ∀ bs, ¬ StepBy reg cc (fun v t bs => Okay (v.encode reg cc t) bs) v t bs := by
  rw [fails_iff (append_value reg cc v t)]
  exact forall_congr' fun bs => not_congr (step_enc hs)

/-- C68: there is nothing else that goes by the rules: they say all there is to say about encoding. -/
theorem C68_only (reg : Reg Id) (cc : Bool) (E : Value Γ → Id → List UInt8 → Prop) (hE : ∀ v t bs, Sized v → (E v t bs ↔ StepBy reg cc E v t bs))
    (v : Value Γ) (hs : Sized v) (t : Id) (bs : List UInt8) : E v t bs ↔ Okay (v.encode reg cc t) bs := step_unique hE v hs t bs

/-- C68: `encode_as_fields`: only of composites, and by the rules for fields. -/
theorem C68_fields (reg : Reg Id) (cc : Bool) (v : Value Γ) (fs : List (Field Id)) (bs : List UInt8) :
    Okay (v.encodeAsFields reg cc fs) bs ↔ ∃ c x, v = .mk (.composite c) x ∧ FieldsBy (fun v t bs => Okay (v.encode reg cc t) bs) c fs bs := by
  obtain ⟨d, x⟩ := v
  unfold Value.encodeAsFields
  cases d with
  | composite c =>
    rw [show (Value.mk (.composite c) x).value = .composite c from rfl]
    constructor
    · intro h; exact ⟨c, x, rfl, fieldsBy_enc.1 h⟩
    · rintro ⟨c', x', h1, h2⟩; cases h1; exact fieldsBy_enc.2 h2
  | variant w => simp only [Value.value, okay_fail_iff, false_iff]; rintro ⟨c, x', h, -⟩; cases h
  | bitSequence w => simp only [Value.value, okay_fail_iff, false_iff]; rintro ⟨c, x', h, -⟩; cases h
  | primitive w => simp only [Value.value, okay_fail_iff, false_iff]; rintro ⟨c, x', h, -⟩; cases h

/-- C68: so a boolean encodes at `bool`, in any number of wrappers, and nowhere else. -/
theorem C68_bool (reg : Reg Id) (cc : Bool) (b : Bool) (x : Γ) (t : Id) (bs : List UInt8) :
    Okay ((Value.mk (.primitive (.bool b)) x).encode reg cc t) bs ↔ (∃ u, Innermost reg t u ∧ reg.resolve u = some (.primitive .bool)) ∧ bs = [if b then 1 else 0] := by
  rw [C68_rules reg cc _ (sized_prim (by simp))]
  constructor
  · intro h; cases h with | bool h1 h2 => exact ⟨⟨_, h1, h2⟩, rfl⟩
  · rintro ⟨⟨u, h1, h2⟩, rfl⟩; exact .bool h1 h2

/-- C68: a text encodes at `str`, in any number of wrappers, and nowhere else. -/
theorem C68_string (reg : Reg Id) (cc : Bool) (s : Str) (hs : (utf8Bytes s).length < 2 ^ 32) (x : Γ) (t : Id) (bs : List UInt8) :
    Okay ((Value.mk (.primitive (.string s)) x).encode reg cc t) bs ↔
      (∃ u, Innermost reg t u ∧ reg.resolve u = some (.primitive .str)) ∧ ∃ p, IsCompact (utf8Bytes s).length p ∧ bs = p ++ utf8Bytes s := by
  rw [C68_rules reg cc _ (sized_prim (by rintro s' h; cases h; exact hs))]
  constructor
  · intro h; cases h with | string h1 h2 h3 => exact ⟨⟨_, h1, h2⟩, _, h3, rfl⟩
  · rintro ⟨⟨u, h1, h2⟩, p, h3, rfl⟩; exact .string h1 h2 h3

/-- C68: a variant encodes at an enum, in any number of wrappers, that has a variant of its name: to the index of the first of that name, then the fields by the rules for fields; and nowhere else. -/
theorem C68_variant (reg : Reg Id) (cc : Bool) (n : Str) (c : Composite Γ) (x : Γ) (hs : Sized (Value.mk (.variant (.mk n c)) x)) (t : Id) (bs : List UInt8) :
    Okay ((Value.mk (.variant (.mk n c)) x).encode reg cc t) bs ↔
      ∃ u before d after bs', Innermost reg t u ∧ reg.resolve u = some (.variant (before ++ d :: after)) ∧ d.name = n ∧ (∀ e ∈ before, e.name ≠ n) ∧
        FieldsBy (fun v t bs => Okay (v.encode reg cc t) bs) c d.fields bs' ∧ bs = d.index :: bs' := by
  rw [C68_rules reg cc _ hs]
  constructor
  · intro h; cases h with | variant h1 h2 h3 h4 h5 => exact ⟨_, _, _, _, _, h1, h2, h3, h4, h5, rfl⟩
  · rintro ⟨u, before, d, after, bs', h1, h2, h3, h4, h5, rfl⟩; exact .variant h1 h2 h3 h4 h5

/-! ### Cases -/

/-- Any value within the limit may be asked about, such as the one of C67 with fields out of order, in excess, and given twice. -/
example : StepBy exReg true (fun v t bs => Okay (v.encode exReg true t) bs) emitExample 3 [7, 4, 9] := by
  refine (C68_rules exReg true emitExample ?_ 3 [7, 4, 9]).1 (fun _ => rfl)
  refine sized_named (by decide) ?_
  intro p hp
  simp only [List.map_cons, List.map_nil, List.mem_cons, List.not_mem_nil, or_false] at hp
  rcases hp with rfl | rfl | rfl | rfl
  · exact sized_prim (by simp)
  · exact sized_prim (by simp)
  · refine sized_unnamed (by decide) ?_
    intro v hv
    obtain rfl : v = exU 9 := by simpa using hv
    exact sized_prim (by simp)
  · exact sized_prim (by simp)

/-- The order of the rules counts: `(())` at a sequence of sequences has one element, which is empty, although `()` on its own could stand there for no elements. -/
example : Okay ((Value.unnamedComposite [.unnamedComposite []] : Value Unit).encode exReg true 18) [4, 0] ∧
    Okay ((Value.unnamedComposite [] : Value Unit).encode exReg true 18) [0] := ⟨fun _ => rfl, fun _ => rfl⟩

/-- .. and the last rule is of use: `(5)` at a `u8` in two wrappers. -/
example : Okay ((Value.unnamedComposite [exU 5] : Value Unit).encode exReg true 15) [5] := fun _ => rfl

end SV
