import Verif.Proofs.Emit
import Verif.Props.EncodeRules
/-
C67: whatever is encoded at a type, from a value of whatever shape, is SCALE of that type, with the data of the value.
-/
namespace SV

variable {Id Γ Δ : Type}

/-- C67: what encoding emits is the SCALE encoding (see Spec/Scale) of some value of the type: there are no bytes too many or too few, no wrong lengths, indexes, characters or padding. All data of
that value are data of the one that was encoded (so nothing is made up); and they are all of them, in the same order, if there are no names in the value. -/
theorem C67_valid (reg : Reg Id) (ctx : Id → Δ) (cc : Bool) (t : Id) (ht : Sensible reg t) (v : Value Γ) (hs : Sized v) (bs : List UInt8) (h : Okay (v.encode reg cc t) bs) :
    ∃ w, Scale reg True .u256 ctx false t w bs ∧ (∀ x ∈ w.leaves, x ∈ v.leaves) ∧ (NoNames v → w.leaves = v.leaves) := encode_emits cc v hs t ht bs h

/-- C67: so the bytes can be decoded at the type, and what follows them is left alone. -/
theorem C67_decodes (reg : Reg Id) (cc : Bool) (t : Id) (ht : Sensible reg t) (v : Value Γ) (hs : Sized v) (bs : List UInt8) (h : Okay (v.encode reg cc t) bs) :
    ∃ w : Value Unit, (∀ r, decodeAsType reg (fun _ => true) t (bs ++ r) = .ok (w, r)) ∧ (∀ x ∈ w.leaves, x ∈ v.leaves) ∧ (NoNames v → w.leaves = v.leaves) := by
  obtain ⟨w, h1, h2, h3⟩ := encode_emits (ctx := fun _ => ()) cc v hs t ht bs h
  exact ⟨w, fun r => decodeWith_ok_iff.2 ⟨fun _ _ _ _ => rfl, bs, rfl, scale_weaken False.elim h1⟩, h2, h3⟩

/-- C67: and encoding what was decoded gives the same bytes again (for types that can be encoded to faithfully, see C25). -/
theorem C67_stable (reg : Reg Id) (cc : Bool) (t : Id) (ht : Sensible reg t) (he : Encodable reg cc t) (v : Value Γ) (hs : Sized v) (bs : List UInt8)
    (h : Okay (v.encode reg cc t) bs) (w : Value Unit) (r : List UInt8) (hw : decodeAsType reg (fun _ => true) t bs = .ok (w, r)) :
    r = [] ∧ Okay (w.encode reg cc t) bs := by
  obtain ⟨w', h1, -, -⟩ := encode_emits (ctx := fun _ => ()) cc v hs t ht bs h
  have h2 : decodeAsType reg (fun _ => true) t bs = .ok (w', []) := decodeWith_ok_iff.2 ⟨fun _ _ _ _ => rfl, bs, by simp, scale_weaken False.elim h1⟩
  rw [h2] at hw
  cases hw
  exact ⟨rfl, encode_complete h1 he⟩

/-- C67: no encoding at a type is the beginning of another one at that type, whatever the values: encodings that are written one after the other can be told apart. -/
theorem C67_prefix_free (reg : Reg Id) (cc : Bool) (t : Id) (ht : Sensible reg t) (v : Value Γ) (v' : Value Δ) (hs : Sized v) (hs' : Sized v') (p q : List UInt8)
    (h : Okay (v.encode reg cc t) p) (h' : Okay (v'.encode reg cc t) (p ++ q)) : q = [] := by
  obtain ⟨w, h1, -, -⟩ := C67_decodes reg cc t ht v hs p h
  obtain ⟨w', h2, -, -⟩ := C67_decodes reg cc t ht v' hs' (p ++ q) h'
  have a := h1 q
  have b := h2 []
  rw [List.append_nil] at b
  rw [a] at b
  cases b
  rfl

/-- C67: the same for lists of fields, as for `encode_as_fields`. -/
theorem C67_fields (reg : Reg Id) (ctx : Id → Δ) (cc : Bool) (fs : List (Field Id)) (hf : ∀ f ∈ fs, Sensible reg f.id) (c : Composite Γ) (x : Γ)
    (hs : Sized (Value.mk (.composite c) x)) (bs : List UInt8) (h : Okay (c.encodeAsFields reg cc fs) bs) :
    ∃ ws, ScaleAll reg True .u256 ctx false (fs.map (fun f => f.id)) ws bs ∧ (∀ d ∈ valueLeaves ws, d ∈ c.leaves) ∧
      (NoNames (Value.mk (.composite c) x) → valueLeaves ws = c.leaves) := by
  rw [Composite.encodeAsFields] at h
  rw [composite_leaves, valueLeaves_eq c.vals]
  have hch : (Value.mk (.composite c) x).children = c.vals := fields_children rfl
  refine emits_fieldsTo (kids_of (fun w hw t ht bs ho => ?_)) ?_ hf h
  · have hw' : w ∈ (Value.mk (.composite c) x).children := by rw [hch]; exact hw
    exact (encode_emits cc w (sized_sub hs hw') t ht bs ho).mono (fun h => noNames_sub h hw')
  · intro hn k hk
    obtain ⟨vs, rfl⟩ := hn _ c (.self _) rfl
    exact unnamed_none reg cc vs k hk

/-! ### Cases -/

/-- The types of the example registry are as required. -/
theorem exSensible (t : Nat) : Sensible exReg t := by
  intro u _
  constructor
  · intro ds h
    have h : exResolve u = _ := h
    unfold exResolve at h
    split at h <;> simp at h
    subst h; decide
  · intro w h x hx
    have h : exResolve u = _ := h
    unfold exResolve at h
    split at h <;> simp at h
    subst h
    have : x = 1 := by
      cases hx with
      | refl => rfl
      | step h1 _ => cases h1 with
        | composite h2 => exact absurd h2 (by simp [exReg, exResolve])
        | tuple h2 => exact absurd h2 (by simp [exReg, exResolve])
        | array h2 => exact absurd h2 (by simp [exReg, exResolve])
    subst this
    intro y n; simp [exReg, exResolve]

theorem sized_unnamed {vs : List (Value Γ)} {x : Γ} (hl : vs.length < 2 ^ 32) (h : ∀ v ∈ vs, Sized v) : Sized (Value.mk (.composite (.unnamed vs)) x) := by
  refine ⟨fun w hw => ?_, fun w b hw => ?_⟩
  · cases hw with
    | self => exact ⟨fun c hc => by cases hc; exact hl, fun s hs => by cases hs⟩
    | child h1 h2 => exact (h _ h1).1 w h2
  · cases hw with
    | self => intro h; cases h
    | child h1 h2 => exact (h _ h1).2 w b h2

theorem sized_named {fs : List (Str × Value Γ)} {x : Γ} (hl : fs.length < 2 ^ 32) (h : ∀ p ∈ fs, Sized p.2) : Sized (Value.mk (.composite (.named fs)) x) := by
  have h' : ∀ v ∈ (Value.mk (.composite (.named fs)) x).children, Sized v := by
    intro v hv; simp only [Value.children, List.mem_map] at hv; obtain ⟨p, hp, rfl⟩ := hv; exact h p hp
  refine ⟨fun w hw => ?_, fun w b hw => ?_⟩
  · cases hw with
    | self => exact ⟨fun c hc => by cases hc; exact hl, fun s hs => by cases hs⟩
    | child h1 h2 => exact (h' _ h1).1 w h2
  · cases hw with
    | self => intro h; cases h
    | child h1 h2 => exact (h' _ h1).2 w b h2

theorem sized_prim {p : Primitive} {x : Γ} (hp : ∀ s, p = .string s → (utf8Bytes s).length < 2 ^ 32) : Sized (Value.mk (.primitive p) x) := by
  refine ⟨fun w hw => ?_, fun w b hw => ?_⟩
  · cases hw with
    | self =>
      refine ⟨?_, ?_⟩
      · intro c hc; cases hc
      · intro s hs; exact hp s (by simpa [Value.value] using hs)
    | child h1 h2 => cases h1
  · cases hw with
    | self => intro h; cases h
    | child h1 h2 => cases h1

/-- A struct given with its fields in another order, with one too many and one twice. -/
def emitExample : Value Unit := .namedComposite [(['b'], .bool true), (['x'], .bool true), (['b'], .unnamedComposite [exU 9]), (['a'], exU 7)]

example : Sized emitExample ∧ Okay (emitExample.encode exReg true 3) [7, 4, 9] := by
  refine ⟨sized_named (by decide) ?_, fun _ => rfl⟩
  intro p hp
  simp only [List.map_cons, List.map_nil, List.mem_cons, List.not_mem_nil, or_false] at hp
  rcases hp with rfl | rfl | rfl | rfl
  · exact sized_prim (by simp)
  · exact sized_prim (by simp)
  · refine sized_unnamed (by decide) ?_
    intro v hv
    obtain rfl : v = exU 9 := by simpa using hv
    exact sized_prim (by simp)
  · exact sized_prim (by simp)

/-- Data may be dropped, and come in another order, when there are names. -/
example : ∃ w : Value Unit, decodeAsType exReg (fun _ => true) 3 [7, 4, 9] = .ok (w, []) ∧ w.leaves = [.num 7, .num 9] ∧
    emitExample.leaves = [.num 1, .num 1, .num 9, .num 7] :=
  ⟨_, decodeWith_eq.2 ⟨5, rfl⟩, rfl, rfl⟩

/-- Without names: bits may be given as numbers and booleans, and come back as bits. -/
example : let v : Value Unit := .unnamedComposite [.bool true, exU 0, .i128 ⟨1, by decide, by decide⟩]
    Okay (v.encode exReg true 9) [12, 5] ∧ NoNames v ∧ v.leaves = [.num 1, .num 0, .num 1] ∧ (Value.bitSequence [true, false, true]).leaves = v.leaves := by
  refine ⟨fun _ => rfl, ?_, rfl, rfl⟩
  intro w c hw hc
  cases hw with
  | self => cases hc; exact ⟨_, rfl⟩
  | child h1 h2 =>
    rw [show (Value.unnamedComposite [Value.bool true, exU 0, .i128 ⟨1, by decide, by decide⟩]).children = [Value.bool true, exU 0, .i128 ⟨1, by decide, by decide⟩] from rfl] at h1
    simp only [List.mem_cons, List.not_mem_nil, or_false] at h1
    rcases h1 with rfl | rfl | rfl <;> (cases h2 with | self => cases hc | child h3 _ => cases h3)

/-- Two variants with the same index, in a registry like that the decoded variant is another one: so distinct indexes are necessary. -/
def sameIndex : Reg Nat where
  resolve t := if t = 0 then some (.variant [⟨['A'], 0, []⟩, ⟨['B'], 0, []⟩]) else none
  rank _ := 0
  rank_lt := by
    intro t d u h hu
    simp only [Option.ite_none_right_eq_some, Option.some.injEq] at h
    rw [← h.2] at hu; cases hu

theorem C67_same_index : Okay ((Value.variant ['B'] (.unnamed []) : Value Unit).encode sameIndex true 0) [0] ∧
    decodeAsType sameIndex (fun _ => true) 0 [0] = .ok (Value.variant ['A'] (.unnamed []), []) :=
  ⟨fun _ => rfl, decodeWith_eq.2 ⟨1, rfl⟩⟩

end SV
