import Verif.Proofs.SizeDec
import Verif.Proofs.DecodeCtx
import Verif.Proofs.TraceErr
import Verif.Proofs.ParseComplete
import Verif.Spec.ExReg
/-
C59, C60: how much memory and how much recursion texts and bytes can bring about.
-/
namespace SV

variable {Id : Type} {u : Uni}

/-! ### C59: texts -/

/-- C59: the value of a text is not larger than the text: the number of values in it, the characters of strings and names and the bits together are no more than the characters consumed. -/
theorem C59_size (s rest : Str) (v : Value Unit) (h : fromStr u s = some (.ok v, rest)) : v.size + v.nameSize + rest.length ≤ s.length := by
  obtain ⟨x, h1, rfl, -⟩ := fromStr_iff.1 h
  have := txt_size (fun _ _ h => h.elim) h1
  simp [Cat.size] at this ⊢
  omega

/-- C59: values are nested no deeper than there are opening brackets in the text, plus one. -/
theorem C59_depth (s rest : Str) (v : Value Unit) (h : fromStr u s = some (.ok v, rest)) (n : Nat) (hn : Deep v n) : n + brackets rest ≤ brackets s + 1 := by
  obtain ⟨x, h1, rfl, -⟩ := fromStr_iff.1 h
  have := txt_deep (fun _ _ h => h.elim) h1 v (List.mem_singleton.2 rfl) n hn
  rw [brackets_append]
  omega

/-- C59: neither is the recursion of the parser, whatever the text (it may be wrong) and the custom parsers: with calls of `parse_value` nested no deeper than that the result is the same. -/
theorem C59_recursion (cps : List CustomParser) (s : Str) :
    ∃ r t, parseValueN u cps (brackets s + 1) (Toks.new s) = some (r, t) ∧ parse u cps s = some (r, t.rest) := parse_depth cps s

/-- C59: and there is no better bound: `n` opening brackets need a recursion that is deeper than `n`, so there is no limit to the use of the stack other than the length of the text. -/
theorem C59_recursion_needed (n : Nat) : parseValueN u [] n (Toks.new (List.replicate n '(')) = none := parse_needs_depth n 0

/-- C59 on a text with all kinds of parts: 28 characters are consumed, for 5 values, 2 characters in strings, 2 bits and 4 characters of names. -/
example : ∃ v, fromStr .ascii "A { b: (\"xy\", <01>), cd: 7 }!".toList = some (.ok v, ['!']) ∧ v.size = 9 ∧ v.nameSize = 4 ∧ Deep v 3 := by
  refine ⟨.mk (.variant (.mk ['A'] (.named [(['b'], .unnamedComposite [.string ['x', 'y'], .bitSequence [false, true]]), (['c', 'd'], .u128 ⟨7, by decide⟩)]))) (), rfl, by decide, by decide, ?_⟩
  exact .inside (List.mem_cons_self ..) (.inside (List.mem_cons_self ..) .here)

example : brackets "A { b: (\"xy\", <01>), cd: 7 }!".toList = 2 := by decide

/-! ### C60: bytes -/

/-- C60: a type in which there are finitely many types, and in which the elements of sequences and arrays cannot be had from no bytes: then decoded values are, in total size, at most a constant times the
number of bytes that were read (plus one). -/
theorem C60_size (reg : Reg Id) (t : Id) (hf : FinitelyMany reg t)
    (hs : ∀ u w, Reach reg t u → (reg.resolve u = some (.sequence w) ∨ ∃ n, reg.resolve u = some (.array w n)) → ∀ al x, decodeAsType reg al w [] ≠ .ok x) :
    ∃ C, (∀ (Γ : Type) (ctx : Id → Γ) al bs v r, decodeWith ctx reg al t bs = .ok (v, r) → v.size + C * r.length ≤ C * (bs.length + 1)) ∧
      ∀ al bs v r, traceDecode reg al t bs = .ok (v, r) → v.size + C * r.length ≤ C * (bs.length + 1) := by
  obtain ⟨R, W, -, hb⟩ := bounded_of_finite hf
  have free : ∀ u w, Reach reg t u → (reg.resolve u = some (.sequence w) ∨ ∃ n, reg.resolve u = some (.array w n)) →
      ∀ (Γ : Type) (ctx : Id → Γ) v, ¬ Scale reg False .u256 ctx false w v [] := by
    intro u w hu hr Γ ctx v h
    have h1 := (decodeWith_ok (al := fun _ => true) (fun _ => rfl) (r := [])).2 ⟨[], rfl, h⟩
    have h2 := decodeWith_map (fun _ => ()) reg (fun _ => true) ctx w []
    rw [List.nil_append] at h1
    rw [h1] at h2
    exact hs u w hu hr (fun _ => true) _ h2
  have fin : ∀ k b size, k ≤ R → Fits R W k size b → size ≤ (frame W R + (2 * frame W (R + 1) + 8)) * (b + 1) := by
    intro k b size hk h
    unfold Fits at h
    have h1 := frame_le W hk
    have h2 : frame W R * 1 ≤ frame W R * (b + 1) := Nat.mul_le_mul_left _ (by omega)
    have h3 : (2 * frame W (R + 1) + 8) * b ≤ (2 * frame W (R + 1) + 8) * (b + 1) := Nat.mul_le_mul_left _ (by omega)
    rw [Nat.add_mul]
    omega
  refine ⟨frame W R + (2 * frame W (R + 1) + 8), ?_, ?_⟩
  · intro Γ ctx al bs v r h
    obtain ⟨-, p, rfl, hp⟩ := decodeWith_ok_iff.1 h
    have hB := hb Γ ctx False .u256 (fun u w v hu hr => free u w hu hr Γ ctx v)
    have := fin _ _ _ (hB.rank t .self) (scale_size (by simp) hp hB)
    rw [List.length_append, Nat.add_right_comm, Nat.mul_add]
    omega
  · intro al bs v r h
    obtain ⟨n, h⟩ := traceDecode_eq.1 h
    obtain ⟨p, rfl, hp⟩ := trN_sound reg al n _ _ _ _ _ _ h
    have hB := hb Id id False .i256 (fun u w v hu hr h => free u w hu hr Id id _ (scale_unsigned h))
    have := fin _ _ _ (hB.rank t .self) (scale_size (by simp) hp hB)
    rw [List.length_append, Nat.add_right_comm, Nat.mul_add]
    omega

/-- C60: and where elements can be had from no bytes, nine bytes are enough to get any number (below 2^64) of them. -/
theorem C60_free_elements (reg : Reg Id) (t w : Id) (ht : reg.resolve t = some (.sequence w)) (x : Value Unit)
    (hw : decodeAsType reg (fun _ => true) w [] = .ok (x, [])) (n : Nat) (hn : n < 2 ^ 64) :
    ∃ bs, bs.length ≤ 9 ∧ decodeAsType reg (fun _ => true) t bs = .ok (.unnamedComposite (List.replicate n x), []) := by
  obtain ⟨p, hp, hx⟩ := (decodeWith_ok (fun _ => rfl)).1 hw
  have hp : p = [] := by simpa using hp.symm
  subst hp
  have hc := isCompact_compactEnc (n := n) (by omega)
  refine ⟨compactEnc n, isCompact_length hc hn, (decodeWith_ok (fun _ => rfl)).2 ⟨compactEnc n, by simp, ?_⟩⟩
  have hall : ∀ n, ScaleAll reg False .u256 (fun _ => ()) false (List.replicate n w) (List.replicate n x) [] := by
    intro n
    induction n with
    | zero => exact .nil
    | succ n ih => exact .cons hx ih
  have := Scale.sequence (reg := reg) (canon := False) (i256 := .u256) (ctx := fun _ => ()) (vs := List.replicate n x) ht (by simpa using hc) (by simpa using hn) (fun h => h.elim) (by simpa using hall n)
  simpa [Value.unnamedComposite, Composite.mkUnnamed] using this

/-- Type 0 is `Vec<()>`, type 1 is `()`. -/
def exUnits : Reg Nat where
  resolve t := match t with | 0 => some (.sequence 1) | 1 => some (.tuple []) | _ => none
  rank t := 2 - t
  rank_lt := by
    intro t d u h hu
    split at h <;> cases h <;> simp [TypeDef.inline] at hu <;> omega

example : exUnits.resolve 0 = some (.sequence 1) ∧ decodeAsType exUnits (fun _ => true) 1 [] = .ok (.unnamedComposite [], []) :=
  ⟨rfl, decodeWith_eq.2 ⟨1, rfl⟩⟩

/-- Four bytes for 2^30 - 1 values. -/
example : compactEnc (2 ^ 30 - 1) = [254, 255, 255, 255] := by decide

/-- C60: decoded values are nested no deeper than a constant times the number of bytes read (plus one), even then. -/
theorem C60_depth (reg : Reg Id) (t : Id) (hf : FinitelyMany reg t) :
    ∃ D, (∀ (Γ : Type) (ctx : Id → Γ) al bs v r, decodeWith ctx reg al t bs = .ok (v, r) → ∀ n, Deep v n → n + D * r.length ≤ D * (bs.length + 1)) ∧
      ∀ al bs v r, traceDecode reg al t bs = .ok (v, r) → ∀ n, Deep v n → n + D * r.length ≤ D * (bs.length + 1) := by
  obtain ⟨R, W, hR, -⟩ := bounded_of_finite hf
  have := hR t .self
  refine ⟨R + 2, ?_, ?_⟩
  · intro Γ ctx al bs v r h n hn
    obtain ⟨-, p, rfl, hp⟩ := decodeWith_ok_iff.1 h
    have := scale_deep hp hR n hn
    rw [List.length_append, Nat.add_right_comm, Nat.mul_add, Nat.mul_add]
    omega
  · intro al bs v r h n hn
    obtain ⟨m, h⟩ := traceDecode_eq.1 h
    obtain ⟨p, rfl, hp⟩ := trN_sound reg al m _ _ _ _ _ _ h
    have := scale_deep hp hR n hn
    rw [List.length_append, Nat.add_right_comm, Nat.mul_add, Nat.mul_add]
    omega

/-- C60: nor is the recursion of the decoders deeper than a constant times the length of the input (plus one), whatever the bytes. -/
theorem C60_recursion (reg : Reg Id) (t : Id) (hf : FinitelyMany reg t) :
    ∃ D, ∀ bs, (∀ (Γ : Type) (ctx : Id → Γ) al, decN reg al ctx (D * (bs.length + 1)) false t bs = some (decodeWith ctx reg al t bs)) ∧
      ∀ al, trN reg al (D * (bs.length + 1)) false [] t bs = some (traceDecode reg al t bs) := by
  obtain ⟨R, W, hR, -⟩ := bounded_of_finite hf
  refine ⟨R + 2, fun bs => ⟨?_, ?_⟩⟩
  · intro Γ ctx al
    have := hR t .self
    obtain ⟨r, hr⟩ := decN_depth reg al ctx R ((R + 2) * (bs.length + 1)) false t bs hR (by rw [Nat.mul_add]; omega)
    rw [hr, decodeWith_eq.2 ⟨_, hr⟩]
  · intro al
    have := hR t .self
    obtain ⟨r, hr⟩ := trN_depth reg al R ((R + 2) * (bs.length + 1)) false [] t bs hR (by rw [Nat.mul_add]; omega)
    rw [hr, traceDecode_eq.2 ⟨_, hr⟩]

/-- A recursive type: `enum List { Nil, Cons(Box<List>) }`, with indexes 0 and 1. -/
def exList : Reg Unit where
  resolve _ := some (.variant [⟨"Nil".toList, 0, []⟩, ⟨"Cons".toList, 1, [⟨none, ()⟩]⟩])
  rank _ := 0
  rank_lt := by intro t d u h hu; cases h; cases hu

/-- C60: for recursive types there is no better bound: `n` bytes can need a recursion that is deeper than `n`, so there is no limit to the use of the stack other than the length of the input. -/
theorem C60_recursion_needed (n : Nat) : decN exList (fun _ => true) (fun _ => ()) n false () (List.replicate n 1) = none := by
  induction n with
  | zero => rfl
  | succ n ih =>
    have : visit exList false () (List.replicate (n + 1) 1) = .ok ⟨(), false, .variant "Cons".toList [⟨none, ()⟩] (List.replicate n 1)⟩ := rfl
    rw [decN, this]
    simp [decComposite, isNamed, decItems, ih, mkVal]

example : FinitelyMany exReg 17 := by
  refine ⟨List.range 21, fun u h => ?_⟩
  have : u < 21 := by
    induction h with
    | self => decide
    | step h1 h2 h3 ih =>
      unfold exReg exResolve at h2
      simp only at h2
      split at h2 <;> cases h2 <;> simp [TypeDef.refs] at h3 <;> omega
  simpa using this

/-- The elements of the sequences in type 17 (there are no arrays in it) take bytes. -/
example : ∀ u w, Reach exReg 17 u → (exReg.resolve u = some (.sequence w) ∨ ∃ n, exReg.resolve u = some (.array w n)) → ∀ al x, decodeAsType exReg al w [] ≠ .ok x := by
  intro u w _ h al x hx
  have h : w = 0 ∨ w = 13 ∨ w = 2 := by
    unfold exReg exResolve at h
    rcases h with h | ⟨n, h⟩ <;> simp only at h <;> split at h <;> cases h <;> simp
  obtain ⟨v, r⟩ := x
  obtain ⟨-, p, hp, hs⟩ := decodeWith_ok_iff.1 hx
  obtain ⟨n, hx⟩ := decodeWith_eq.1 ((decodeWith_ok (al := fun _ => true) (fun _ => rfl)).2 ⟨p, hp, hs⟩)
  have h2 := decN_mono exReg _ (fun _ => ()) (Nat.le_add_right n 5) _ _ _ _ hx
  rcases h with rfl | rfl | rfl <;> cases h2

example : decodeAsType exList (fun _ => true) () [1, 1, 0, 9] = .ok (.unnamedVariant "Cons".toList [.unnamedVariant "Cons".toList [.unnamedVariant "Nil".toList []]], [9]) :=
  decodeWith_eq.2 ⟨3, rfl⟩

end SV
