import Verif.Proofs.Static
import Verif.Proofs.Alloc
import Verif.Props.Encode
import Verif.Props.Serde
/-
Property C56: the two routes between Rust data and SCALE bytes, `derive(Encode)` and values, agree.
-/
namespace SV

variable {Id : Type} {ix : List (Str × VTy) → Str → UInt8} {reg : Reg Id}

/-- C56: the bytes that `derive(Encode)` gives for data of a Rust type, followed by anything, decode at the description of this type in the registry to the value that `to_value` makes of the data, and
what follows is left, unless there is not enough memory. -/
theorem C56_decode (a : Ty) (t : Id) (hi : Info ix reg a t) (d : Dat) (bs : List UInt8) (h : Static ix a d bs) :
    ∃ s v, a.ser d = some s ∧ s.toValue = .ok v ∧ (∀ r, decodeAsType reg (fun _ => true) t (bs ++ r) = .ok (v, r)) ∧
      ∀ al r, decodeAsType reg al t (bs ++ r) = .ok (v, r) ∨ decodeAsType reg al t (bs ++ r) = .panic := by
  obtain ⟨s, v, h1, h2, h3⟩ := static_canon h hi
  have hd : ∀ r, decodeAsType reg (fun _ => true) t (bs ++ r) = .ok (v, r) := fun r => decodeWith_ok_iff.2 ⟨fun _ _ _ _ => rfl, bs, rfl, scale_weaken False.elim h3⟩
  refine ⟨s, v, h1, h2, hd, fun al r => ?_⟩
  rcases decodeWith_safe (fun _ => ()) reg al t (bs ++ r) with h | h
  · exact .inr h
  · exact .inl (h.trans (hd r))

/-- C56: and the value is encoded to these bytes. -/
theorem C56_encode (a : Ty) (t : Id) (hi : Info ix reg a t) (d : Dat) (bs : List UInt8) (h : Static ix a d bs) (cc : Bool) (he : Encodable reg cc t) :
    ∃ s v, a.ser d = some s ∧ s.toValue = .ok v ∧ Okay (v.encode reg cc t) bs := by
  obtain ⟨s, v, h1, h2, h3⟩ := static_canon h hi
  exact ⟨s, v, h1, h2, encode_complete h3 he⟩

/-- C56: this covers all data of the type (with lengths that SCALE allows): there are bytes for it, and no others. -/
theorem C56_total (a : Ty) (t : Id) (hi : Info ix reg a t) (d : Dat) (s : Ser) (h : a.ser d = some s) (hd : ShortDat d) :
    ∃ bs, Static ix a d bs ∧ ∀ bs', Static ix a d bs' → bs' = bs := by
  obtain ⟨bs, hb⟩ := static_total hi h hd
  exact ⟨bs, hb, fun bs' hb' => static_unique hb hi hb'⟩

/-- C56: conversely, whatever decodes at the type of the registry is the value that `to_value` makes of some data of the Rust type, and the bytes that were read are those that `derive(Encode)` gives for
the data. -/
theorem C56_decoded_is_data (a : Ty) (t : Id) (hi : Info ix reg a t) (al : Nat → Bool) (bs r : List UInt8) (v : Value Unit)
    (h : decodeAsType reg al t bs = .ok (v, r)) (hs : Short v) :
    ∃ d s p, a.ser d = some s ∧ s.toValue = .ok v ∧ Static ix a d p ∧ bs = p ++ r := by
  obtain ⟨-, p, rfl, h1⟩ := decodeWith_ok_iff.1 h
  obtain ⟨d, hd⟩ := static_exists hi h1 hs
  obtain ⟨s, w, h2, h3, h4⟩ := static_canon hd hi
  have e1 : decodeAsType reg (fun _ => true) t p = .ok (w, []) := decodeWith_ok_iff.2 ⟨fun _ _ _ _ => rfl, p, by simp, scale_weaken False.elim h4⟩
  have e2 : decodeAsType reg (fun _ => true) t p = .ok (v, []) := decodeWith_ok_iff.2 ⟨fun _ _ _ _ => rfl, p, by simp, h1⟩
  rw [e1] at e2
  cases e2
  exact ⟨d, s, p, h2, h3, hd, rfl⟩

/-- C56: so decoding and then `from_value` is the same as decoding statically: it gives the data whose bytes they are. -/
theorem C56_read (a : Ty) (t : Id) (hi : Info ix reg a t) (ha : Returns a) (d : Dat) (bs : List UInt8) (h : Static ix a d bs) (al : Nat → Bool) (r : List UInt8)
    (hp : decodeAsType reg al t (bs ++ r) ≠ .panic) :
    ∃ v, decodeAsType reg al t (bs ++ r) = .ok (v, r) ∧ a.de v.der = some d := by
  obtain ⟨s, v, h1, h2, -, h3⟩ := C56_decode a t hi d bs h
  obtain ⟨w, h4, h5⟩ := C48_round_trip a ha d s h1
  rw [h2] at h4
  cases h4
  exact ⟨v, (h3 al r).resolve_right hp, h5⟩

/-- C56: hence no two data have the same bytes. -/
theorem C56_injective (a : Ty) (t : Id) (hi : Info ix reg a t) (ha : Returns a) (d e : Dat) (bs : List UInt8) (h : Static ix a d bs) (h' : Static ix a e bs) : d = e := by
  have np : decodeAsType reg (fun _ => true) t (bs ++ []) ≠ .panic := by
    obtain ⟨_, _, _, _, h3, _⟩ := C56_decode a t hi d bs h
    rw [h3]; nofun
  obtain ⟨v, h1, h2⟩ := C56_read a t hi ha d bs h (fun _ => true) [] np
  obtain ⟨w, h3, h4⟩ := C56_read a t hi ha e bs h' (fun _ => true) [] np
  rw [h1] at h3
  cases h3
  rw [h2] at h4
  cases h4
  rfl

/-- C56: `struct S {}` (with braces) is the exception: what is decoded is `()`, while `to_value` gives `{}`. Both are read as `S`, and both are encoded to no bytes. -/
theorem C56_empty_struct (t : Id) (ht : reg.resolve t = some (.composite [])) (al : Nat → Bool) (hal : al 0 = true) (r : List UInt8) :
    decodeAsType reg al t r = .ok (.unnamedComposite [], r) ∧
    (∃ s, (Ty.struct []).ser (.list []) = some s ∧ s.toValue = .ok (.namedComposite [])) ∧
    (Ty.struct []).de (Value.unnamedComposite []).der = some (.list []) ∧ (Ty.struct []).de (Value.namedComposite []).der = some (.list []) ∧
    ∀ cc, Okay ((Value.unnamedComposite []).encode reg cc t) [] ∧ Okay ((Value.namedComposite []).encode reg cc t) [] := by
  refine ⟨?_, ⟨_, rfl, rfl⟩, rfl, rfl, fun cc => ?_⟩
  · exact decodeWith_ok_iff.2 ⟨fun w c hw hc => (by
      cases hw with
      | self => cases hc; exact hal
      | child h _ => cases h), [], rfl, .composite ht (by simp) .nil (.unnamed (.inl rfl))⟩
  · have hs : skip reg t = t := skip_done (by intro w hw; cases hw <;> simp_all)
    have key : Okay (encComposite reg [] t) [] := by
      intro out
      simp only [encComposite, doEncodeComposite, ht, encCompositeAsType, hs]
      rfl
    exact ⟨by rw [Value.unnamedComposite, enc_composite]; exact key, by rw [Value.namedComposite, enc_composite]; exact key⟩

/-! ### Examples -/

/-- `(struct { a: u8, b: Vec<u8> }, enum { A = 0, B(u8, u8) = 5, C { x: bool } = 7 })` -/
def exStaticStruct : Ty := .struct [(['a'], .num .u8), (['b'], .seq (.num .u8))]
def exStaticEnum : Ty := .enum [(['A'], .unit), (['B'], .tuple [.num .u8, .num .u8]), (['C'], .struct [(['x'], .bool)])]
def exStaticIx : List (Str × VTy) → Str → UInt8 := fun _ n => if n = ['A'] then 0 else if n = ['B'] then 5 else 7

theorem exStatic_info : Info exStaticIx exReg (.tuple [exStaticStruct, exStaticEnum]) 13 := by
  have u8 : Info exStaticIx exReg (.num .u8) 0 := .num rfl
  refine .tuple rfl (.cons ?_ (.cons ?_ .nil))
  · exact .struct (by simp) rfl rfl (.cons u8 (.cons (.seq rfl u8) .nil))
  · refine .enum rfl (by decide) (by simp) (by decide) rfl ?_ ?_
    · intro i v d hv hd
      match i with
      | 0 => cases hv; cases hd; exact ⟨rfl, rfl, rfl⟩
      | 1 => cases hv; cases hd; exact ⟨rfl, rfl, rfl⟩
      | 2 => cases hv; cases hd; exact ⟨rfl, rfl, rfl⟩
      | i + 3 => cases hv
    · intro i v d hv hd
      match i with
      | 0 => cases hv; cases hd; exact .nil
      | 1 => cases hv; cases hd; exact .cons u8 (.cons u8 .nil)
      | 2 => cases hv; cases hd; exact .cons (.bool rfl) .nil
      | i + 3 => cases hv

/-- `(S { a: 7, b: vec![9] }, E::B(1, 2))` -/
def exStaticDat : Dat :=
  .list [.list [.num ⟨.u8, 7, by decide, by decide⟩, .list [.num ⟨.u8, 9, by decide, by decide⟩]], .enum ['B'] [.num ⟨.u8, 1, by decide, by decide⟩, .num ⟨.u8, 2, by decide, by decide⟩]]

theorem exStatic_bytes : Static exStaticIx (.tuple [exStaticStruct, exStaticEnum]) exStaticDat [7, 4, 9, 5, 1, 2] := by
  have u8 : ∀ (n : Num) (b : UInt8), n.ty = .u8 → n.val = (b.toNat : Nat) → Static exStaticIx (.num .u8) (.num n) [b] := by
    rintro ⟨_, n, h1, h2⟩ b rfl h
    have hb : IsLe (NumTy.u8.bits / 8) b.toNat [b] := by
      rw [show NumTy.u8.bits / 8 = 1 from by decide]
      exact ⟨rfl, by simp [leNum_eq, leVal]⟩
    exact .unsigned (n := ⟨.u8, n, h1, h2⟩) rfl h hb
  have s1 : Static exStaticIx exStaticStruct (.list [.num ⟨.u8, 7, by decide, by decide⟩, .list [.num ⟨.u8, 9, by decide, by decide⟩]]) ([7] ++ (([4] ++ ([9] ++ [])) ++ [])) := by
    refine .struct (.cons (u8 _ 7 rfl rfl) (.cons (.seq (.one (by decide) ⟨rfl, rfl⟩) (by decide) (.cons (u8 _ 9 rfl rfl) .nil)) .nil))
  have s2 : Static exStaticIx exStaticEnum (.enum ['B'] [.num ⟨.u8, 1, by decide, by decide⟩, .num ⟨.u8, 2, by decide, by decide⟩]) (5 :: ([1] ++ ([2] ++ []))) :=
    .enum (v := .tuple [.num .u8, .num .u8]) (by simp) (.cons (u8 _ 1 rfl rfl) (.cons (u8 _ 2 rfl rfl) .nil))
  exact .tuple (.cons s1 (.cons s2 .nil))

theorem exStatic_returns : Returns (.tuple [exStaticStruct, exStaticEnum]) := by
  refine .tuple ?_
  simp only [List.forall_mem_cons]
  refine ⟨.struct (by decide) ?_, .enum ?_ ?_ ?_ ?_, by simp⟩
  · simp only [List.forall_mem_cons]
    exact ⟨.num _, .seq (.num _), by simp⟩
  · simp
  · rintro v hv ts h t ht
    simp only [List.mem_cons, List.not_mem_nil, or_false] at hv
    rcases hv with rfl | rfl | rfl <;> cases h
    simp only [List.mem_cons, List.not_mem_nil, or_false, or_self] at ht
    subst ht
    exact .num _
  · rintro v hv ts h
    simp only [List.mem_cons, List.not_mem_nil, or_false] at hv
    rcases hv with rfl | rfl | rfl <;> cases h
    decide
  · rintro v hv ts h t ht
    simp only [List.mem_cons, List.not_mem_nil, or_false] at hv
    rcases hv with rfl | rfl | rfl <;> cases h
    simp only [List.mem_cons, List.not_mem_nil, or_false] at ht
    subst ht
    exact .bool

example : ∃ v, decodeAsType exReg (fun _ => true) 13 [7, 4, 9, 5, 1, 2, 99] = .ok (v, [99]) ∧ (Ty.tuple [exStaticStruct, exStaticEnum]).de v.der = some exStaticDat :=
  C56_read _ 13 exStatic_info exStatic_returns exStaticDat _ exStatic_bytes (fun _ => true) [99] (by rw [show decodeAsType exReg (fun _ => true) 13 ([7, 4, 9, 5, 1, 2] ++ [99]) = .ok (_, [99]) from decodeWith_eq.2 ⟨5, rfl⟩]; nofun)

end SV
