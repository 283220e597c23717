import Verif.Proofs.EncodeTyped
import Verif.Proofs.FormatCtx
import Verif.Spec.ExReg
/-
Properties C25, C26, C29, C30: encoding.
-/
namespace SV

variable {Id Γ Δ S : Type}

/-! ### Examples of types that can be encoded to faithfully -/

/-- All types of `exReg` other than the 256 bit number and `Z(Y(Vec<Vec<u8>>))` are fine by themselves. -/
theorem exPlain (t : Nat) (h5 : t ≠ 5) (h20 : t ≠ 20) : Plain exReg true t := by
  have hr : ∀ d, exReg.resolve t = some d → exResolve t = some d := fun d h => h
  have hwr : ∀ {a b : Nat}, Wraps exReg a b → (a = 14 ∧ b = 0) ∨ (a = 15 ∧ b = 14) ∨ (a = 19 ∧ b = 18) ∨ (a = 20 ∧ b = 19) := by
    intro a b h
    cases h with
    | composite h =>
      have h : exResolve a = _ := h
      unfold exResolve at h
      split at h <;> simp at h <;> simp [← h]
    | tuple h =>
      have h : exResolve a = _ := h
      unfold exResolve at h
      split at h <;> simp at h
  refine ⟨?_, ?_, fun _ => rfl, ?_, ?_, ?_⟩
  · intro h
    have h : exResolve t = _ := h
    unfold exResolve at h
    split at h <;> simp at h
  · intro h
    have h : exResolve t = _ := h
    unfold exResolve at h
    split at h <;> simp at h <;> contradiction
  · intro fs h names hn
    have h : exResolve t = _ := h
    unfold exResolve at h
    split at h <;> simp at h <;> subst h
    · match names, hn with
      | [a, b], hn => simp at hn; rw [← hn.1, ← hn.2]; decide
    all_goals
      match names, hn with
      | [a], hn => simp at hn
  · intro ds h
    have h : exResolve t = _ := h
    unfold exResolve at h
    split at h <;> simp at h
    subst h
    refine ⟨by decide, ?_⟩
    intro d hd names hn
    simp at hd
    rcases hd with rfl | rfl | rfl
    · match names, hn with
      | [], _ => exact List.nodup_nil
    · match names, hn with
      | [a, b], hn => simp at hn
    · match names, hn with
      | [a], _ => simp
  · intro a b c e h1 h2 h3 h4
    rcases hwr h1 with ⟨rfl, rfl⟩ | ⟨rfl, rfl⟩ | ⟨rfl, rfl⟩ | ⟨rfl, rfl⟩
    · rcases hwr h2 with ⟨h, rfl⟩ | ⟨h, rfl⟩ | ⟨h, rfl⟩ | ⟨h, rfl⟩ <;> simp at h
    · rcases hwr h2 with ⟨h, rfl⟩ | ⟨h, rfl⟩ | ⟨h, rfl⟩ | ⟨h, rfl⟩ <;> simp at h
      cases h3 with
      | done _ => rcases h4 with h4 | h4 <;> simp [exReg, exResolve] at h4
      | step h _ => rcases hwr h with ⟨h, -⟩ | ⟨h, -⟩ | ⟨h, -⟩ | ⟨h, -⟩ <;> simp at h
    · rcases hwr h2 with ⟨h, rfl⟩ | ⟨h, rfl⟩ | ⟨h, rfl⟩ | ⟨h, rfl⟩ <;> simp at h
    · exact (h20 rfl).elim

theorem exReach {t u : Nat} (h : Reach exReg t u) (ht : t < 20) : u < 20 ∧ (u = 5 → t = 5) := by
  induction h with
  | self => exact ⟨ht, fun h => h⟩
  | @step v d w _ h1 h2 ih =>
    have h1 : exResolve v = _ := h1
    unfold exResolve at h1
    split at h1 <;> simp at h1 <;> subst h1 <;> simp [TypeDef.refs] at h2 <;> omega

theorem exEncodable (t : Nat) (h : t < 20) (h5 : t ≠ 5) : Encodable exReg true t := fun u hu =>
  exPlain u (fun h' => h5 ((exReach hu h).2 h')) (by have := (exReach hu h).1; omega)

/-! ### C25 -/

/-- C25: a value that was decoded can be encoded again at the same type. The bytes that this gives are as many as were read, and decode to the same
value again; if there are no bit sequences in the type then they are exactly those that were read. (Bits that pad a bit sequence are ignored when
reading and written as zeros.) -/
theorem C25_reencode (ctx : Id → Γ) (reg : Reg Id) (cc : Bool) (al : Nat → Bool) (t : Id) (bs r : List UInt8) (v : Value Γ)
    (h : decodeWith ctx reg al t bs = .ok (v, r)) (he : Encodable reg cc t) (hs : Short v) :
    ∃ p, Okay (v.encode reg cc t) p ∧ p.length + r.length = bs.length ∧ decodeWith ctx reg al t (p ++ r) = .ok (v, r) ∧
      (NoBits reg t → bs = p ++ r) := by
  obtain ⟨ha, q, rfl, hq⟩ := decodeWith_ok_iff.1 h
  obtain ⟨p, h1, h2, h3⟩ := scale_canon hq hs
  exact ⟨p, encode_complete h1 he, by simp [h2], decodeWith_ok_iff.2 ⟨ha, p, rfl, scale_weaken False.elim h1⟩, fun hn => by rw [h3 hn]⟩

/-- C25: canonical bytes (as any encoder gives) decode to a value that encodes to the same bytes. -/
theorem C25_canonical (ctx : Id → Γ) (reg : Reg Id) (cc : Bool) (al : Nat → Bool) (t : Id) (bs : List UInt8) (v : Value Γ) (ha : AllocOk al v)
    (h : Scale reg True .u256 ctx false t v bs) (he : Encodable reg cc t) :
    decodeWith ctx reg al t bs = .ok (v, []) ∧ Okay (v.encode reg cc t) bs :=
  ⟨decodeWith_ok_iff.2 ⟨ha, bs, by simp, scale_weaken False.elim h⟩, encode_complete h he⟩

/-- C25 is about something: a tuple of a struct and an enum. -/
example : ∃ v, decodeAsType exReg (fun _ => true) 13 [7, 4, 9, 5, 1, 2, 3] = .ok (v, [3]) ∧ Okay (v.encode exReg true 13) [7, 4, 9, 5, 1, 2] :=
  ⟨_, decodeWith_eq.2 ⟨5, rfl⟩, fun out => rfl⟩

/-! ### C26 -/

/-- C26: a value in the shape of a type encodes at that type, and the bytes followed by anything decode to it, and leave what follows. -/
theorem C26_round_trip (reg : Reg Id) (cc : Bool) (al : Nat → Bool) (t : Id) (v : Value Γ) (h : Typed reg false t v) (he : Encodable reg cc t) (ha : AllocOk al v) :
    ∃ bs, Okay (v.encode reg cc t) bs ∧ ∀ r, decodeAsType reg al t (bs ++ r) = .ok (v.removeContext, r) := by
  obtain ⟨bs, hb⟩ := typed_scale (f := .u256) h
  refine ⟨bs, ?_, fun r => decodeWith_ok_iff.2 ⟨allocOk_mapContext _ ha, bs, rfl, scale_weaken False.elim hb⟩⟩
  have := encode_complete hb he
  rwa [removeContext_eq, Value.mapContext, encode_mapContext] at this

/-- C26: the same for a list of fields, as for `encode_as_fields` and `decode_as_fields`. -/
theorem C26_fields (reg : Reg Id) (cc : Bool) (al : Nat → Bool) (fs : List (Field Id)) (vs : List (Value Γ)) (cs : Composite Γ)
    (ht : TypedAll reg false (fs.map (fun f => f.id)) vs) (hs : HasShape fs vs cs) (hf : FieldsOk fs) (he : ∀ f ∈ fs, Encodable reg cc f.id)
    (hal : al fs.length = true) (ha : ∀ v ∈ cs.vals, AllocOk al v) :
    ∃ bs, Okay (cs.encodeAsFields reg cc fs) bs ∧
      ∀ r, compositeDecodeAsFields reg al fs (bs ++ r) = (.ok (cs.mapContextS (fun (s : Unit) _ => ((), s)) ()), r) := by
  have key : ∀ ts (vs : List (Value Γ)), TypedAll reg false ts vs → (∀ t ∈ ts, Encodable reg cc t) → ∃ bs,
      All3 (fun t (v : Value Γ) bs => Okay (v.encode reg cc t) bs) ts vs bs ∧
      ScaleAll reg False .u256 (fun _ => ()) false ts (mapValsS (fun (s : Unit) (_ : Γ) => ((), s)) vs ()) bs := by
    intro ts
    induction ts with
    | nil => intro vs h _; cases h; exact ⟨[], .nil, by rw [mapValsS]; exact .nil⟩
    | cons t ts ih =>
      intro vs h he
      cases h with
      | cons h1 h2 =>
        obtain ⟨bs, a1, a2⟩ := ih _ h2 (fun w hw => he w (by simp [hw]))
        obtain ⟨b, hb⟩ := typed_scale (f := .u256) h1
        have ho := encode_complete hb (he t (by simp))
        rw [removeContext_eq, Value.mapContext, encode_mapContext] at ho
        exact ⟨b ++ bs, .cons ho a1, by rw [mapValsS]; exact .cons (scale_weaken False.elim hb) a2⟩
  obtain ⟨bs, h1, h2⟩ := key _ _ ht (fun t ht => by
    obtain ⟨f, hf, rfl⟩ := List.mem_map.1 ht
    exact he f hf)
  refine ⟨bs, okay_fieldsTo (fun _ _ _ h => h) hs hf h1, fun r => ?_⟩
  have : decodeFields (fun _ => ()) reg al fs (bs ++ r) = .ok (cs.mapContextS (fun (s : Unit) _ => ((), s)) (), r) :=
    decodeFields_ok_iff.2 ⟨hal, fun v hv => by
      obtain ⟨u, hu, rfl⟩ : ∃ u ∈ cs.vals, v = u.mapContext (fun _ => ()) := by
        cases cs with
        | named l =>
          simp only [Composite.mapContextS, mapFieldsS_eq, Composite.vals, List.map_map, List.mem_map] at hv ⊢
          obtain ⟨x, hx, rfl⟩ := hv
          exact ⟨_, ⟨x, hx, rfl⟩, rfl⟩
        | unnamed l =>
          simp only [Composite.mapContextS, mapValsS_eq, Composite.vals, List.mem_map] at hv ⊢
          obtain ⟨x, hx, rfl⟩ := hv
          exact ⟨_, hx, rfl⟩
      exact allocOk_mapContext _ (ha u hu), bs, _, rfl, h2, hasShape_removeContext hs⟩
  unfold compositeDecodeAsFields
  rw [this]

/-- C26: no two values of a type have the same bytes, and the bytes of none are the beginning of those of another. -/
theorem C26_injective (reg : Reg Id) (cc : Bool) (t : Id) (v : Value Γ) (w : Value Δ) (hv : Typed reg false t v) (hw : Typed reg false t w)
    (he : Encodable reg cc t) (p q : List UInt8) (h1 : Okay (v.encode reg cc t) p) (h2 : Okay (w.encode reg cc t) (p ++ q)) :
    v.removeContext = w.removeContext ∧ q = [] := by
  obtain ⟨p', a1, a2⟩ := C26_round_trip reg cc (fun _ => true) t v hv he (fun _ _ _ _ => rfl)
  obtain ⟨q', b1, b2⟩ := C26_round_trip reg cc (fun _ => true) t w hw he (fun _ _ _ _ => rfl)
  have e1 := okay_unique h1 a1
  have e2 := okay_unique h2 b1
  have c1 := a2 q
  have c2 := b2 []
  rw [← e1] at a2 c1
  rw [← e2, List.append_nil, c1] at c2
  simp only [Out.ok.injEq, Prod.mk.injEq] at c2
  exact c2

/-- C26: no value can be encoded to a 256 bit number type (or a wrapper of one), although such types can be decoded. -/
theorem C26_no_256 (reg : Reg Id) (cc : Bool) (v : Value Γ) (t u : Id) (hu : Innermost reg t u)
    (h : reg.resolve u = some (.primitive .u256) ∨ reg.resolve u = some (.primitive .i256)) : Fails (v.encode reg cc t) := by
  obtain ⟨p, hp, h⟩ : ∃ p, (p = Prim.u256 ∨ p = Prim.i256) ∧ reg.resolve (findSingle reg t).1 = some (.primitive p) := by
    rw [findSingle_iff.2 hu]; rcases h with h | h
    · exact ⟨_, .inl rfl, h⟩
    · exact ⟨_, .inr rfl, h⟩
  clear hu
  exact fails_256 reg cc p hp v t h

/-- C26 is about something: a typed value with a bit sequence of three bits. -/
example : Typed exReg false 9 (.mk (.bitSequence [true, false, true]) ()) ∧ Encodable exReg true 9 ∧
    Okay ((Value.mk (.bitSequence [true, false, true]) ()).encode exReg true 9) [12, 5] :=
  ⟨.bits (s := .u8) (o := .lsb0) rfl (by decide), exEncodable 9 (by decide) (by decide), fun out => rfl⟩

/-- C26: the last condition of `Plain` is needed. The value `(((())))` of `struct Z(Y)`, `struct Y(Vec<Vec<u8>>)` (an empty list in two wrappers) is encoded
as a list with one item: `[4, 0]` and not `[0]`. -/
theorem C26_wrapped_list_bug :
    let empty : Value Unit := .mk (.composite (.unnamed [])) ()
    let v : Value Unit := .mk (.composite (.unnamed [.mk (.composite (.unnamed [empty])) ()])) ()
    decodeAsType exReg (fun _ => true) 20 [0] = .ok (v, []) ∧ Okay (v.encode exReg true 20) [4, 0] ∧
      ∃ w, decodeAsType exReg (fun _ => true) 20 [4, 0] = .ok (w, []) ∧ w ≠ v := by
  refine ⟨decodeWith_eq.2 ⟨5, rfl⟩, fun out => rfl, _, decodeWith_eq.2 ⟨5, rfl⟩, ?_⟩
  intro h
  simp at h

/-! ### C29 -/

/-- C29: encoding only appends: what was in the buffer stays, and has no influence on the result or on what is appended. -/
theorem C29_append_only (reg : Reg Id) (cc : Bool) (v : Value Γ) (t : Id) : ∃ result written, ∀ out, v.encode reg cc t out = (result, out ++ written) :=
  ⟨_, _, append_value reg cc v t⟩

/-- C29: the same for `encode_as_fields`. -/
theorem C29_append_only_fields (reg : Reg Id) (cc : Bool) (v : Value Γ) (fs : List (Field Id)) :
    ∃ result written, ∀ out, v.encodeAsFields reg cc fs out = (result, out ++ written) := by
  obtain ⟨d, x⟩ := v
  cases d with
  | composite c => exact ⟨_, _, append_fieldsTo (append_children reg cc c) fs⟩
  | _ => exact ⟨_, _, append_fail _⟩

/-- C29: encoding of a composite value that fails leaves the buffer as it was, at any type and wherever the failure is. -/
theorem C29_composite_atomic (reg : Reg Id) (cc : Bool) (c : Composite Γ) (x : Γ) (t : Id) (out : List UInt8) (e : EErr Id)
    (h : ((Value.mk (.composite c) x).encode reg cc t out).1 = .error e) : ((Value.mk (.composite c) x).encode reg cc t out).2 = out := by
  rw [enc_composite] at h ⊢
  have hlast : ∀ cs u e', (encLast cs u e' out : Except (EErr Id) Unit × _).1 = .error e → (encLast cs u e' out : Except (EErr Id) Unit × _).2 = out := by
    intro cs u e' h
    unfold encLast at h ⊢
    split
    · rename_i d
      simp only at h ⊢
      split
      · rename_i h'; rw [h'] at h; cases h
      · rfl
    · rfl
  unfold encComposite at h ⊢
  rcases h1 : doEncodeComposite reg (c.encChildren reg cc) t [] with ⟨o, q⟩
  rw [h1] at h
  cases o with
  | ok x => cases h
  | error e1 =>
    simp only at h ⊢
    rcases h2 : findSingle reg t with ⟨u, o⟩
    rw [h2] at h
    cases o with
    | false => exact hlast _ _ _ h
    | true =>
      simp only at h ⊢
      rcases h3 : doEncodeComposite reg (c.encChildren reg cc) u [] with ⟨o, q⟩
      rw [h3] at h
      cases o with
      | ok x => cases h
      | error e2 => exact hlast _ _ _ h

/-- C29: so does encoding of a primitive other than a 256 bit number, and of a bit sequence. -/
theorem C29_leaf_atomic (reg : Reg Id) (cc : Bool) (d : ValueDef Γ) (hd : (∃ b, d = .bitSequence b) ∨ ∃ p, d = .primitive p ∧ (∀ b, p ≠ .u256 b) ∧ ∀ b, p ≠ .i256 b)
    (x : Γ) (t : Id) (out : List UInt8) (e : EErr Id)
    (h : ((Value.mk d x).encode reg cc t out).1 = .error e) : ((Value.mk d x).encode reg cc t out).2 = out := by
  have hok : ∀ a : EncM Id, ((∃ w, Okay a w) ∨ ∀ o, (a o).2 = o) → (a out).1 = .error e → (a out).2 = out := by
    rintro a (⟨w, hw⟩ | ha) h
    · rw [hw out] at h; cases h
    · exact ha out
  have hwf : ∀ (a : EncM Id) , ((∃ w, a = .write w) ∨ ∃ k, a = .fail k) → ((∃ w, Okay a w) ∨ ∀ o, (a o).2 = o) := by
    rintro a (⟨w, rfl⟩ | ⟨k, rfl⟩)
    · exact .inl ⟨w, okay_write w⟩
    · exact .inr (fun o => rfl)
  refine hok _ (hwf _ ?_) h
  have hu : ∀ u k n, (∃ w, encUintK u k n = (.write w : EncM Id)) ∨ ∃ e, encUintK u k n = (.fail e : EncM Id) := by
    intro u k n; unfold encUintK; split
    · exact .inl ⟨_, rfl⟩
    · exact .inr ⟨_, rfl⟩
  have hi : ∀ u k n, (∃ w, encIntK u k n = (.write w : EncM Id)) ∨ ∃ e, encIntK u k n = (.fail e : EncM Id) := by
    intro u k n; unfold encIntK; split
    · exact .inl ⟨_, rfl⟩
    · exact .inr ⟨_, rfl⟩
  have hc : ∀ u k n, (∃ w, encCompactK u k n = (.write w : EncM Id)) ∨ ∃ e, encCompactK u k n = (.fail e : EncM Id) := by
    intro u k n; unfold encCompactK; split
    · exact .inl ⟨_, rfl⟩
    · exact .inr ⟨_, rfl⟩
  have hnum : ∀ b n, (∃ w, encNum reg b n t = (.write w : EncM Id)) ∨ ∃ e, encNum reg b n t = (.fail e : EncM Id) := by
    intro b n
    unfold encNum
    simp only
    split <;> first | exact hu _ _ _ | exact hi _ _ _ | exact .inr ⟨_, rfl⟩ | skip
    · split
      · exact hu _ _ _
      · exact .inr ⟨_, rfl⟩
    · split <;> first | exact hc _ _ _ | exact .inr ⟨_, rfl⟩
  rcases hd with ⟨b, rfl⟩ | ⟨p, rfl, h1, h2⟩
  · rw [enc_bits]
    unfold encBits
    simp only
    split <;> first | exact .inl ⟨_, rfl⟩ | exact .inr ⟨_, rfl⟩
  · rw [enc_prim]
    cases p with
    | bool b => unfold encPrimitive encBool; simp only; split <;> first | exact .inl ⟨_, rfl⟩ | exact .inr ⟨_, rfl⟩
    | char c => exact hnum _ _
    | string s => unfold encPrimitive encStr; simp only; split <;> first | exact .inl ⟨_, rfl⟩ | exact .inr ⟨_, rfl⟩
    | u128 n => exact hnum _ _
    | i128 n => exact hnum _ _
    | u256 b => exact (h1 b rfl).elim
    | i256 b => exact (h2 b rfl).elim

/-- C29: not so for variants: the index, and the fields before the one that fails, have been written. -/
example : (Value.mk (.variant (.mk ['B'] (.unnamed [.mk (.primitive (.u128 ⟨1, by decide⟩)) (), .mk (.primitive (.bool true)) ()]))) () : Value Unit).encode exReg true 4 [99] =
    (.error ⟨[.idx 1], .wrongShape 0⟩, [99, 5, 1]) := rfl

/-- C29: nor for 256 bit numbers. -/
example : (Value.mk (.primitive (.u256 ⟨List.replicate 32 7, rfl⟩)) () : Value Unit).encode exReg true 18 [99] = (.error ⟨[.idx 0], .wrongShape 2⟩, [99, 128]) := rfl

/-- C29: a composite that fails at its second value. -/
example : (Value.mk (.composite (.unnamed [.mk (.primitive (.u128 ⟨1, by decide⟩)) (), .mk (.primitive (.bool true)) ()])) () : Value Unit).encode exReg true 7 [99] =
    (.error ⟨[.idx 1], .wrongShape 0⟩, [99]) := rfl

/-! ### C30 -/

/-- C30: contexts do not influence encoding, be it with success or not. -/
theorem C30_encode (reg : Reg Id) (cc : Bool) (f : S → Γ → Δ × S) (s : S) (v : Value Γ) (t : Id) :
    (v.mapContextS f s).encode reg cc t = v.encode reg cc t := by rw [encode_mapContext]

/-- C30: nor do they influence `encode_as_fields`. -/
theorem C30_encode_fields (reg : Reg Id) (cc : Bool) (f : S → Γ → Δ × S) (s : S) (v : Value Γ) (fs : List (Field Id)) :
    (v.mapContextS f s).encodeAsFields reg cc fs = v.encodeAsFields reg cc fs := by
  obtain ⟨d, x⟩ := v
  cases d with
  | composite c => rw [Value.mapContextS, ValueDef.mapContextS]; unfold Value.encodeAsFields Composite.encodeAsFields; simp only [Value.value, encode_mapContext_children]
  | variant c => rfl
  | primitive c => rfl
  | bitSequence c => rfl

/-- C30: nor do they influence `Display`, in either form, with any writer. -/
theorem C30_display {W : Type} (u : Uni) (wr : Writer W) (alt : Bool) (f : S → Γ → Δ × S) (s : S) (v : Value Γ) (w : W) :
    (v.mapContextS f s).display u wr alt w = v.display u wr alt w := by rw [display_mapContext]

/-- C30: nor writing with a builder that does not print contexts, when the custom formatters do not look at contexts. -/
theorem C30_write {W : Type} (u : Uni) (b : Builder Γ W) (b' : Builder Δ W) (h : SameOut b b') (f : S → Γ → Δ × S) (s : S)
    (hc : ∀ s v w, runFormatters b'.customFormatters (v.mapContextS f s) w = runFormatters b.customFormatters v w) (v : Value Γ) (w : W) :
    b'.write u (v.mapContextS f s) w = b.write u v w := by
  unfold Builder.write
  rw [fmt_mapContext h hc, h.style]

/-- C30: `format_hex` does not look at contexts. -/
theorem C30_format_hex {W : Type} (wr : Writer W) (f : S → Γ → Δ × S) (s : S) (v : Value Γ) (w : W) :
    formatHex wr (v.mapContextS f s) w = formatHex wr v w := by
  have hp : ∀ s, ∀ v : Value Γ, (v.mapContextS f s).asU128Prim = v.asU128Prim := by
    intro s v; obtain ⟨d, x⟩ := v; cases d with
    | primitive p => rw [Value.mapContextS, ValueDef.mapContextS]; cases p <;> rfl
    | composite c => rw [Value.mapContextS, ValueDef.mapContextS]; rfl
    | variant c => rw [Value.mapContextS, ValueDef.mapContextS]; rfl
    | bitSequence b => rw [Value.mapContextS, ValueDef.mapContextS]; rfl
  have hl : ∀ s (vs : List (Value Γ)) w, hexLoop wr (mapValsS f vs s) w = hexLoop wr vs w := by
    intro s vs
    induction vs with
    | nil => intro w; rw [mapValsS, hexLoop, hexLoop]
    | cons v vs ih => intro w; rw [mapValsS, hexLoop, hexLoop, hp]; simp only [ih]
  obtain ⟨d, x⟩ := v
  cases d with
  | primitive p => rfl
  | bitSequence b => rfl
  | variant c => cases c; rfl
  | composite c =>
    cases c with
    | named fs => rfl
    | unnamed vs =>
      rw [Value.mapContextS, ValueDef.mapContextS, Composite.mapContextS]
      unfold formatHex
      simp only [hl]
      have h1 : (mapValsS f vs (f s x).2).isEmpty = vs.isEmpty := by cases vs <;> rfl
      have h2 : ∀ (vs : List (Value Γ)) s, (mapValsS f vs s).map Value.asU128Prim = vs.map Value.asU128Prim := by
        intro vs
        induction vs with
        | nil => intro s; rw [mapValsS]; rfl
        | cons v vs ih => intro s; rw [mapValsS]; simp [hp, ih]
      have h3 : ∀ {Ε : Type} (vs : List (Value Ε)), (vs.all fun v => match v.asU128Prim with
          | some n => decide (n.val < 256)
          | none => false) = (vs.map Value.asU128Prim).all (fun o => match o with
          | some n => decide (n.val < 256)
          | none => false) := by intro Ε vs; rw [List.all_map]; rfl
      rw [h1]
      split
      · rfl
      · exact if_congr (Eq.to_iff (congrArg (· = true) (((h3 _).trans (by rw [h2])).trans (h3 _).symm))) rfl rfl

end SV
