import Verif.Proofs.DecodeCtx
import Verif.Proofs.Alloc
import Verif.Spec.ExReg
/-
Properties C27, C28, C36 - C40: decoding.
-/
namespace SV

variable {Id Γ Δ : Type}

/-! ### C27 -/

/-- C27: decoding accepts exactly what SCALE says is an encoding of a value of the type, followed by anything, which remains (as far as memory
for the value can be had). -/
theorem C27_exact (ctx : Id → Γ) (reg : Reg Id) (al : Nat → Bool) (t : Id) (bs r : List UInt8) (v : Value Γ) :
    decodeWith ctx reg al t bs = .ok (v, r) ↔ AllocOk al v ∧ ∃ p, bs = p ++ r ∧ Scale reg False .u256 ctx false t v p := decodeWith_ok_iff

/-- C27: success consumes a prefix, and does not depend on what follows it. -/
theorem C27_local (ctx : Id → Γ) (reg : Reg Id) (al : Nat → Bool) (t : Id) (bs r : List UInt8) (v : Value Γ)
    (h : decodeWith ctx reg al t bs = .ok (v, r)) : ∃ p, bs = p ++ r ∧ ∀ r', decodeWith ctx reg al t (p ++ r') = .ok (v, r') := by
  obtain ⟨ha, p, rfl, hp⟩ := decodeWith_ok_iff.1 h
  exact ⟨p, rfl, fun r' => decodeWith_ok_iff.2 ⟨ha, p, rfl, hp⟩⟩

/-- C27: no part of the bytes of a value decodes: a truncated input is never taken for another value. -/
theorem C27_truncated (ctx : Id → Γ) (reg : Reg Id) (al : Nat → Bool) (t : Id) (p q : List UInt8) (v : Value Γ)
    (h : decodeWith ctx reg al t (p ++ q) = .ok (v, [])) (hq : q ≠ []) : ∀ x, decodeWith ctx reg al t p ≠ .ok x := by
  rintro ⟨w, r⟩ hw
  obtain ⟨p', rfl, h'⟩ := C27_local ctx reg al t _ _ _ hw
  have := h' (r ++ q)
  rw [← List.append_assoc, h] at this
  simp at this
  exact hq this.2.2

/-- C27: decoding of a list of fields accepts exactly the values of the fields one after the other, and on success the cursor is left at
what follows. -/
theorem C27_fields_exact (reg : Reg Id) (al : Nat → Bool) (fs : List (Field Id)) (bs r : List UInt8) (cs : Composite Id) :
    decodeCompositeAsFields reg al fs bs = (.ok cs, r) ↔ al fs.length = true ∧ (∀ v ∈ cs.vals, AllocOk al v) ∧
      ∃ p vs, bs = p ++ r ∧ ScaleAll reg False .u256 id false (fs.map (fun f => f.id)) vs p ∧ HasShape fs vs cs := by
  rw [← decodeFields_ok_iff (ctx := id)]
  unfold decodeCompositeAsFields
  cases decodeFields id reg al fs bs with
  | panic => simp
  | err e => simp
  | ok x => simp [Prod.ext_iff]

/-- C27: `decode_composite_as_fields` leaves the cursor as it was unless it succeeds. -/
theorem C27_fields_untouched (reg : Reg Id) (al : Nat → Bool) (fs : List (Field Id)) (bs : List UInt8)
    (h : ∀ cs, (decodeCompositeAsFields reg al fs bs).1 ≠ .ok cs) : (decodeCompositeAsFields reg al fs bs).2 = bs := by
  revert h
  unfold decodeCompositeAsFields
  cases decodeFields id reg al fs bs with
  | panic => intro _; rfl
  | err e => intro _; rfl
  | ok x => intro h; exact (h _ rfl).elim

/-- C27: `Composite::decode_as_fields` and `Value::decode_as_fields` have the same outcome, without the contexts; on success with the
cursor at the same place. -/
theorem C27_fields_agree (reg : Reg Id) (al : Nat → Bool) (fs : List (Field Id)) (bs : List UInt8) :
    (compositeDecodeAsFields reg al fs bs).1 = (decodeCompositeAsFields reg al fs bs).1.map (fun c => c.mapContextS (fun (s : Unit) _ => ((), s)) ()) ∧
    (valueDecodeAsFields reg al fs bs).1 = (compositeDecodeAsFields reg al fs bs).1.map (fun c => .mk (.composite c) ()) ∧
    (valueDecodeAsFields reg al fs bs).2 = (compositeDecodeAsFields reg al fs bs).2 ∧
    (∀ cs r, decodeCompositeAsFields reg al fs bs = (.ok cs, r) → (compositeDecodeAsFields reg al fs bs).2 = r) := by
  have h := decodeFields_map (fun (_ : Id) => ()) reg al id fs bs
  unfold valueDecodeAsFields compositeDecodeAsFields decodeCompositeAsFields
  rw [h]
  cases decodeFields id reg al fs bs with
  | panic => exact ⟨rfl, rfl, rfl, by intro cs r h; cases h⟩
  | err e => exact ⟨rfl, rfl, rfl, by intro cs r h; cases h⟩
  | ok x => exact ⟨rfl, rfl, rfl, by intro cs r h; cases h; rfl⟩

/-- C27 is about something: an enum value with two bytes after it. -/
example : decodeValueAsType exReg (fun _ => true) 4 [5, 1, 2, 9, 9] =
    .ok (.mk (.variant (.mk ['B'] (.unnamed [.mk (.primitive (.u128 ⟨1, by decide⟩)) 0, .mk (.primitive (.u128 ⟨2, by decide⟩)) 0]))) 4, [9, 9]) :=
  decodeWith_eq.2 ⟨3, rfl⟩

/-- C27: a witness for `C27_fields_untouched`: the second field is cut off. -/
example : decodeCompositeAsFields exReg (fun _ => true) [⟨some ['a'], 0⟩, ⟨some ['b'], 2⟩] [1, 8, 1] = (.err .codec, [1, 8, 1]) := by
  rw [decodeCompositeAsFields, (decodeFields_eq.2 ⟨3, rfl⟩ : decodeFields id exReg (fun _ => true) [⟨some ['a'], 0⟩, ⟨some ['b'], 2⟩] [1, 8, 1] =
    .err (.codec, [8, 1]))]

/-- C27: in contrast, `Composite::decode_as_fields` has moved the cursor in this case. -/
example : compositeDecodeAsFields exReg (fun _ => true) [⟨some ['a'], 0⟩, ⟨some ['b'], 2⟩] [1, 8, 1] = (.err .codec, [8, 1]) := by
  rw [compositeDecodeAsFields, (decodeFields_eq.2 ⟨3, rfl⟩ : decodeFields (fun _ => ()) exReg (fun _ => true) [⟨some ['a'], 0⟩, ⟨some ['b'], 2⟩] [1, 8, 1] =
    .err (.codec, [8, 1]))]

/-! ### C28 -/

/-- C28: in a decoded value every node has a type id as its context: it is the id of a type which occurs in the type that was asked for, and
the node is a value of that type (or, below a `Compact`, of its `Compact`). -/
theorem C28_contexts (reg : Reg Id) (al : Nat → Bool) (t : Id) (bs r : List UInt8) (v : Value Id)
    (h : decodeValueAsType reg al t bs = .ok (v, r)) (w : Value Id) (hw : Sub v w) :
    Reach reg t w.context ∧ ∃ c q, Scale reg False .u256 id c w.context w q := by
  obtain ⟨-, p, -, hp⟩ := decodeWith_ok_iff.1 h
  exact scale_sub hp w hw

/-- C28: the context of the root is the type that was asked for, or for `Compact<u>` it is `u`. -/
theorem C28_root (reg : Reg Id) (al : Nat → Bool) (t : Id) (bs r : List UInt8) (v : Value Id)
    (h : decodeValueAsType reg al t bs = .ok (v, r)) : v.context = t ∨ ∃ u, reg.resolve t = some (.compact u) ∧ v.context = u := by
  obtain ⟨-, p, -, hp⟩ := decodeWith_ok_iff.1 h
  cases hp with
  | compact ht hu => cases hu <;> exact .inr ⟨_, ht, rfl⟩
  | _ => exact .inl rfl

/-- C28: decoding as `Value<()>` is decoding with type ids and then removing the contexts, in all outcomes. -/
theorem C28_unit (reg : Reg Id) (al : Nat → Bool) (t : Id) (bs : List UInt8) :
    decodeAsType reg al t bs = (decodeValueAsType reg al t bs).map (fun x => (x.1.removeContext, x.2)) :=
  decodeWith_map (fun (_ : Id) => ()) reg al id t bs

/-- C28: more generally contexts have no influence on decoding. -/
theorem C28_any (g : Γ → Δ) (ctx : Id → Γ) (reg : Reg Id) (al : Nat → Bool) (t : Id) (bs : List UInt8) :
    decodeWith (fun u => g (ctx u)) reg al t bs = (decodeWith ctx reg al t bs).map (fun x => (x.1.mapContext g, x.2)) :=
  decodeWith_map g reg al ctx t bs

/-- C28: a compact number has the id of the number type. -/
example : decodeValueAsType exReg (fun _ => true) 6 [4] = .ok (.mk (.primitive (.u128 ⟨1, by decide⟩)) 1, []) := decodeWith_eq.2 ⟨1, rfl⟩

/-- C28: nested contexts. -/
example : decodeValueAsType exReg (fun _ => true) 13 [7, 0, 7, 1] =
    .ok (.mk (.composite (.unnamed [.mk (.composite (.named [(['a'], .mk (.primitive (.u128 ⟨7, by decide⟩)) 0), (['b'], .mk (.composite (.unnamed [])) 2)])) 3,
      .mk (.variant (.mk ['C'] (.named [(['x'], .mk (.primitive (.bool true)) 12)]))) 4])) 13, []) := decodeWith_eq.2 ⟨4, rfl⟩

/-! ### C36 -/

/-- C36: the plain decoder reads any 32 bytes at a signed 256 bit type as an *unsigned* number with these bytes. -/
theorem C36_plain (reg : Reg Id) (al : Nat → Bool) (t : Id) (ht : reg.resolve t = some (.primitive .i256)) (b : Bytes32) (r : List UInt8) :
    decodeValueAsType reg al t (b.bytes ++ r) = .ok (.mk (.primitive (.u256 b)) t, r) := by
  refine decodeWith_ok_iff.2 ⟨?_, b.bytes, rfl, .i256 ht⟩
  intro w c hw hc
  cases hw with
  | self => cases hc
  | child hu => cases hu

/-- C36: the tracing decoder reads it as a signed number. -/
theorem C36_traced (reg : Reg Id) (al : Nat → Bool) (t : Id) (ht : reg.resolve t = some (.primitive .i256)) (b : Bytes32) (r : List UInt8) :
    traceDecode reg al t (b.bytes ++ r) = .ok (.mk (.primitive (.i256 b)) t, r) :=
  traceDecode_eq.2 ⟨1, trN_leaf ((visit_leaf_complete r).2.2.2.2.2.2.1 b ht)⟩

/-- C36: with fewer bytes both fail. -/
theorem C36_short (reg : Reg Id) (al : Nat → Bool) (t : Id) (ht : reg.resolve t = some (.primitive .i256)) (bs : List UInt8) (h : bs.length < 32) :
    decodeValueAsType reg al t bs = .err .codec ∧ traceDecode reg al t bs = .err (.fromDecode .codec) := by
  have : visit reg false t bs = .error .codec := by
    unfold visit visitPlain readPrim read32 leafStep
    simp only [ht]
    rw [dif_neg (by omega)]; rfl
  exact ⟨decodeWith_eq.2 ⟨1, by rw [decN, this]⟩, traceDecode_eq.2 ⟨1, by rw [trN, this]⟩⟩

/-- C36 is about something: minus one. -/
example : decodeValueAsType exReg (fun _ => true) 5 (List.replicate 32 255) =
    .ok (.mk (.primitive (.u256 ⟨List.replicate 32 255, by decide⟩)) 5, []) := decodeWith_eq.2 ⟨1, rfl⟩

/-! ### C37 -/

/-- C37: what the tracing decoder reads the plain decoder reads too (256 bit numbers as unsigned), with the same bytes left. -/
theorem C37_traced_then_plain (reg : Reg Id) (al : Nat → Bool) (t : Id) (bs r : List UInt8) (w : Value Id)
    (h : traceDecode reg al t bs = .ok (w, r)) : decodeValueAsType reg al t bs = .ok (w.mapPrim unsigned, r) := by
  obtain ⟨v, hv⟩ := (traceDecode_sim reg al id t bs).ok w r (by rw [h])
  have hv := Option.some.inj hv
  obtain ⟨n, h⟩ := traceDecode_eq.1 h
  obtain ⟨p, rfl, hp⟩ := trN_sound reg al n _ _ _ _ _ _ h
  have h' : decodeValueAsType reg (fun _ => true) t (p ++ r) = .ok (w.mapPrim unsigned, r) := (decodeWith_ok (fun _ => rfl)).2 ⟨p, rfl, scale_unsigned hp⟩
  rcases decodeWith_safe id reg al t (p ++ r) with h1 | h1
  · rw [h1] at hv; cases hv
  · exact h1.trans h'

/-- C37: what the plain decoder reads the tracing decoder reads too, unless there are more than 100 million members in a group. -/
theorem C37_plain_then_traced (reg : Reg Id) (al : Nat → Bool) (t : Id) (bs r : List UInt8) (v : Value Id)
    (h : decodeValueAsType reg al t bs = .ok (v, r)) (hs : SmallGroups v) :
    ∃ w, v = w.mapPrim unsigned ∧ traceDecode reg al t bs = .ok (w, r) := by
  have h0 := h
  rcases decodeWith_safe id reg al t bs with h1 | h1
  · have h : decodeWith id reg al t bs = .ok (v, r) := h
    rw [h1] at h; cases h
  · have h : decodeWith id reg (fun _ => true) t bs = .ok (v, r) := h1.symm.trans h
    obtain ⟨p, rfl, hp⟩ := (decodeWith_ok (fun _ => rfl)).1 h
    obtain ⟨w, rfl, hw⟩ := scale_signed hp
    have hw' : traceDecode reg (fun _ => true) t (p ++ r) = .ok (w, r) := traceDecode_eq.2 (trN_complete reg _ (fun _ => rfl) False hw (smallGroups_mapPrim hs) [] r)
    refine ⟨w, rfl, ?_⟩
    rcases traceDecode_safe reg al t (p ++ r) with h2 | h2
    · have := Option.some.inj ((traceDecode_sim reg al id t (p ++ r)).panic (by rw [h2]))
      have h0 : decodeWith id reg al t (p ++ r) = .ok _ := h0
      rw [this] at h0; cases h0
    · exact h2.trans hw'

/-- C37: for types without signed 256 bit numbers the two agree exactly, apart from the limit. -/
theorem C37_agree (reg : Reg Id) (al : Nat → Bool) (t : Id) (hno : ∀ u, Reach reg t u → reg.resolve u ≠ some (.primitive .i256))
    (bs r : List UInt8) (v : Value Id) : traceDecode reg al t bs = .ok (v, r) ↔ decodeValueAsType reg al t bs = .ok (v, r) ∧ SmallGroups v := by
  have key : ∀ {p}, Scale reg False .i256 id false t v p → traceDecode reg al t (p ++ r) = .ok (v, r) → v.mapPrim unsigned = v := by
    intro p hp h
    have h1 := C37_traced_then_plain reg (fun _ => true) t (p ++ r) r v (by
      rcases traceDecode_safe reg al t (p ++ r) with h2 | h2
      · rw [h2] at h; cases h
      · rw [← h2]; exact h)
    have h2 : decodeValueAsType reg (fun _ => true) t (p ++ r) = .ok (v, r) := (decodeWith_ok (fun _ => rfl)).2 ⟨p, rfl, scale_no_i256 hp hno⟩
    rw [h1] at h2
    injection h2 with h2
    exact (Prod.mk.injEq _ _ _ _ ▸ h2).1
  constructor
  · intro h
    have h0 := h
    obtain ⟨n, h⟩ := traceDecode_eq.1 h
    obtain ⟨p, rfl, hp⟩ := trN_sound reg al n _ _ _ _ _ _ h
    have := C37_traced_then_plain reg al t _ r v h0
    rw [key hp h0] at this
    exact ⟨this, trN_small reg al n _ _ _ _ _ _ h⟩
  · rintro ⟨h, hs⟩
    obtain ⟨w, hw, ht⟩ := C37_plain_then_traced reg al t bs r v h hs
    rcases decodeWith_safe id reg al t bs with h1 | h1
    · have h : decodeWith id reg al t bs = .ok (v, r) := h
      rw [h1] at h; cases h
    · have h : decodeWith id reg (fun _ => true) t bs = .ok (v, r) := h1.symm.trans h
      obtain ⟨p, rfl, hp⟩ := (decodeWith_ok (fun _ => rfl)).1 h
      have h2 : traceDecode reg (fun _ => true) t (p ++ r) = .ok (v, r) := traceDecode_eq.2 (trN_complete reg _ (fun _ => rfl) False (scale_no_i256 hp hno) hs [] r)
      rcases traceDecode_safe reg al t (p ++ r) with h3 | h3
      · rw [h3] at ht; cases ht
      · exact h3.trans h2

/-- C37: the tracing decoder panics (for lack of memory) only if the plain one does. Short of a panic neither depends on the memory there is. -/
theorem C37_memory (reg : Reg Id) (al : Nat → Bool) (t : Id) (bs : List UInt8) :
    (traceDecode reg al t bs = .panic → decodeValueAsType reg al t bs = .panic) ∧
    (traceDecode reg al t bs = .panic ∨ traceDecode reg al t bs = traceDecode reg (fun _ => true) t bs) ∧
    (decodeValueAsType reg al t bs = .panic ∨ decodeValueAsType reg al t bs = decodeValueAsType reg (fun _ => true) t bs) :=
  ⟨fun h => Option.some.inj ((traceDecode_sim reg al id t bs).panic (by rw [h])), traceDecode_safe reg al t bs, decodeWith_safe id reg al t bs⟩

/-- C37 is about something: the type `(struct { a: u8, b: Vec<u8> }, enum ...)` has no signed 256 bit numbers. -/
example : ∀ u, Reach exReg 13 u → exReg.resolve u ≠ some (.primitive .i256) := by
  have : ∀ u, Reach exReg 13 u → u ∈ [13, 3, 4, 0, 2, 12] := by
    intro u h
    induction h with
    | self => simp
    | step _ h1 h2 ih =>
      simp only [List.mem_cons, List.not_mem_nil, or_false] at ih
      rcases ih with rfl | rfl | rfl | rfl | rfl | rfl <;> cases h1 <;> revert h2 <;> simp [TypeDef.refs] <;> (intro h; rcases h with rfl | rfl <;> simp)
  intro u hu
  have := this u hu
  simp only [List.mem_cons, List.not_mem_nil, or_false] at this
  rcases this with rfl | rfl | rfl | rfl | rfl | rfl <;> simp [exReg, exResolve]

/-! ### C38 -/

/-- C38: an error with a path says that decoding fails at the end of this path, for the reason given, having decoded what is given. -/
theorem C38_located (reg : Reg Id) (al : Nat → Bool) (t : Id) (bs : List UInt8) (path : Path) (soFar : Value Id) (e : DErr)
    (h : traceDecode reg al t bs = .err (.fromVisitor path soFar e)) : FailsAt reg false t bs path (some soFar) e := by
  obtain ⟨n, h⟩ := traceDecode_eq.1 h
  obtain ⟨rel, h1, h2⟩ := trN_err reg al n _ _ _ _ _ h
  rw [List.nil_append] at h1
  subst h1
  exact failsAt_iff.2 h2

/-- C38: an error without a path says that the root itself cannot be read. -/
theorem C38_root (reg : Reg Id) (al : Nat → Bool) (t : Id) (bs : List UInt8) (e : DErr)
    (h : traceDecode reg al t bs = .err (.fromDecode e)) : FailsAt reg false t bs [] none e := by
  obtain ⟨n, h⟩ := traceDecode_eq.1 h
  exact failsAt_iff.2 (trN_err reg al n _ _ _ _ _ h)

/-- C38: conversely whenever decoding fails somewhere this is the error (if the memory suffices). -/
theorem C38_complete (reg : Reg Id) (al : Nat → Bool) (t : Id) (bs : List UInt8) (hal : traceDecode reg al t bs ≠ .panic) (path : Path) (e : DErr) :
    (∀ soFar, FailsAt reg false t bs path (some soFar) e → traceDecode reg al t bs = .err (.fromVisitor path soFar e)) ∧
    (FailsAt reg false t bs path none e → traceDecode reg al t bs = .err (.fromDecode e) ∧ path = []) := by
  rw [(traceDecode_safe reg al t bs).resolve_left hal]
  exact ⟨fun _ h => traceDecode_eq.2 (failsVisit_complete (fun _ => rfl) (failsAt_iff.1 h) []),
    fun h => ⟨traceDecode_eq.2 (failsVisit_complete (fun _ => rfl) (failsAt_iff.1 h) []), failsVisit_none (failsAt_iff.1 h)⟩⟩

/-- C38: the reason (if it is not the limit) is the one for which the plain decoder fails. -/
theorem C38_same_reason (reg : Reg Id) (al : Nat → Bool) (t : Id) (bs : List UInt8) (e : DErr) (he : e ≠ .tooManyEntries)
    (h : traceDecode reg al t bs = .err (.fromDecode e) ∨ ∃ path soFar, traceDecode reg al t bs = .err (.fromVisitor path soFar e)) :
    decodeValueAsType reg al t bs = .err e := by
  have hp : decodeValueAsType reg al t bs ≠ .panic := by
    intro hp
    have key : ∀ x : TErr (Value Id), x.why = e → traceDecode reg al t bs = .err x → False := by
      intro x hx h
      obtain ⟨e', h'⟩ := (traceDecode_sim reg al id t bs).err x (by rw [h]) (by rw [hx]; exact he)
      have hp : decodeWith id reg al t bs = .panic := hp
      rw [hp] at h'
      cases h'
    rcases h with h | ⟨path, soFar, h⟩
    · exact key _ rfl h
    · exact key _ rfl h
  have hs : decodeValueAsType reg al t bs = decodeValueAsType reg (fun _ => true) t bs := (decodeWith_safe id reg al t bs).resolve_left hp
  rw [hs]
  rcases h with h | ⟨path, soFar, h⟩
  · exact decodeWith_eq.2 (failsVisit_plain (fun _ => rfl) (failsAt_iff.1 (C38_root reg al t bs e h)) he)
  · exact decodeWith_eq.2 (failsVisit_plain (fun _ => rfl) (failsAt_iff.1 (C38_located reg al t bs path soFar e h)) he)

/-- C38 is about something: in `(struct { a: u8, b: Vec<u8> }, ...)` the second item of `b` is missing. -/
example : traceDecode exReg (fun _ => true) 13 [7, 8, 1] =
    .err (.fromVisitor [.index 0, .field ['b'], .index 1] (.mk (.composite (.unnamed [.mk (.composite (.named [(['a'], .mk (.primitive (.u128 ⟨7, by decide⟩)) 0),
      (['b'], .mk (.composite (.unnamed [.mk (.primitive (.u128 ⟨1, by decide⟩)) 0])) 2)])) 3])) 13) .codec) := traceDecode_eq.2 ⟨5, rfl⟩

/-! ### C39 -/

/-- C39: if room for 100 million values and for the fields of the structs and variants of the registry can be had then the tracing decoder never
panics, whatever the input. -/
theorem C39_no_panic (reg : Reg Id) (al : Nat → Bool) (hs : ∀ n, n ≤ 100000000 → al n = true)
    (hc : ∀ u fs, reg.resolve u = some (.composite fs) → al fs.length = true)
    (hv : ∀ u ds d, reg.resolve u = some (.variant ds) → d ∈ ds → al d.fields.length = true) (t : Id) (bs : List UInt8) :
    traceDecode reg al t bs ≠ .panic := by
  intro h
  obtain ⟨n, h⟩ := traceDecode_eq.1 h
  exact trN_no_panic reg al hs hc hv n _ _ _ _ h

/-- C39: a sequence that claims to be longer is an error, whatever follows. -/
theorem C39_too_long (reg : Reg Id) (al : Nat → Bool) (t u : Id) (ht : reg.resolve t = some (.sequence u)) (n : Nat) (p r : List UInt8)
    (hp : IsCompact n p) (h1 : 100000000 < n) (h2 : n < 2 ^ 64) : traceDecode reg al t (p ++ r) = .err (.fromDecode .tooManyEntries) := by
  refine traceDecode_eq.2 ⟨1, ?_⟩
  rw [trN, visit_sequence ht hp h2]
  simp only
  rw [trUnnamed, if_pos (by rw [List.length_replicate]; exact h1)]; rfl

/-- C39: a sequence that claims to have no more members than that is never rejected for its length at its root. -/
theorem C39_not_too_long (reg : Reg Id) (al : Nat → Bool) (t u : Id) (ht : reg.resolve t = some (.sequence u)) (n : Nat) (p r : List UInt8)
    (hp : IsCompact n p) (h1 : n ≤ 100000000) : traceDecode reg al t (p ++ r) ≠ .err (.fromDecode .tooManyEntries) := by
  intro h
  have h := failsAt_iff.1 (C38_root reg al t _ _ h)
  have hv := visit_sequence (bs := r) ht hp (by omega : n < 2 ^ 64)
  cases h with
  | here h => rw [hv] at h; cases h
  | tooMany h hp' _ _ hl =>
    rw [hv] at h
    cases h
    cases hp'
    simp at hl
    omega

/-- C39: the plain decoder has no such limit: it panics if the memory which the input claims to need cannot be had. -/
theorem C39_plain_panics (reg : Reg Id) (al : Nat → Bool) (t u : Id) (ht : reg.resolve t = some (.sequence u)) (n : Nat) (p r : List UInt8)
    (hp : IsCompact n p) (h2 : n < 2 ^ 64) (hn : al n = false) : decodeValueAsType reg al t (p ++ r) = .panic := by
  refine decodeWith_eq.2 ⟨1, ?_⟩
  rw [decN, visit_sequence ht hp h2]
  simp only
  rw [decUnnamed, List.length_replicate, hn]; rfl

/-- C39 is about something: eight bytes that claim to be a vector of 2^32 bytes, with memory for at most 100 million values. -/
example : decodeValueAsType exReg (fun n => decide (n ≤ 100000000)) 2 [7, 0, 0, 0, 0, 1] = .panic ∧
    traceDecode exReg (fun n => decide (n ≤ 100000000)) 2 [7, 0, 0, 0, 0, 1] = .err (.fromDecode .tooManyEntries) := by
  have hp : IsCompact (2 ^ 32) [7, 0, 0, 0, 0, 1] := (isCompact_iff (by decide)).2 (by decide)
  exact ⟨C39_plain_panics exReg _ 2 0 rfl _ _ [] hp (by decide) (by decide), C39_too_long exReg _ 2 0 rfl _ _ [] hp (by decide) (by decide)⟩

/-! ### C40 -/

/-- C40: a decoded struct is a named composite, with the names of its fields in order, if it has fields and all have names; else unnamed. -/
theorem C40_struct (ctx : Id → Γ) (reg : Reg Id) (al : Nat → Bool) (t : Id) (fs : List (Field Id)) (ht : reg.resolve t = some (.composite fs))
    (bs r : List UInt8) (v : Value Γ) (h : decodeWith ctx reg al t bs = .ok (v, r)) : ∃ cs, v = .mk (.composite cs) (ctx t) ∧ cs.len = fs.length ∧
      ((∃ ns, cs = .named ns ∧ fs.map (fun f => f.name) = ns.map (fun p => some p.1)) ↔ (fs ≠ [] ∧ ∀ f ∈ fs, f.name ≠ none)) ∧
      ((∃ vs, cs = .unnamed vs) ↔ (fs = [] ∨ ∃ f ∈ fs, f.name = none)) := by
  obtain ⟨-, p, -, hp⟩ := decodeWith_ok_iff.1 h
  cases hp with
  | composite ht' hc hall hs =>
    rw [ht] at ht'
    cases ht'
    have hl := (scaleAll_length hall).symm
    rw [List.length_map] at hl
    exact ⟨_, rfl, by rw [hasShape_len hs hl, hl], hasShape_named_iff hs hl⟩
  | _ ht' => rw [ht] at ht'; cases ht'

/-- C40: the same for the fields of a variant; the variant is the one with the index that was read. -/
theorem C40_variant (ctx : Id → Γ) (reg : Reg Id) (al : Nat → Bool) (t : Id) (ds : List (VariantDef Id)) (ht : reg.resolve t = some (.variant ds))
    (bs r : List UInt8) (v : Value Γ) (h : decodeWith ctx reg al t bs = .ok (v, r)) : ∃ d cs, d ∈ ds ∧ bs.head? = some d.index ∧
      v = .mk (.variant (.mk d.name cs)) (ctx t) ∧ cs.len = d.fields.length ∧
      ((∃ ns, cs = .named ns ∧ d.fields.map (fun f => f.name) = ns.map (fun p => some p.1)) ↔ (d.fields ≠ [] ∧ ∀ f ∈ d.fields, f.name ≠ none)) ∧
      ((∃ vs, cs = .unnamed vs) ↔ (d.fields = [] ∨ ∃ f ∈ d.fields, f.name = none)) := by
  obtain ⟨-, p, rfl, hp⟩ := decodeWith_ok_iff.1 h
  cases hp with
  | @variant _ _ d _ _ _ ht' hd hall hs =>
    rw [ht] at ht'
    cases ht'
    have hl := (scaleAll_length hall).symm
    rw [List.length_map] at hl
    exact ⟨d, _, List.mem_of_find?_eq_some hd, rfl, rfl, by rw [hasShape_len hs hl, hl], hasShape_named_iff hs hl⟩
  | _ ht' => rw [ht] at ht'; cases ht'

/-- C40: the same for decoding a list of fields. -/
theorem C40_fields (reg : Reg Id) (al : Nat → Bool) (fs : List (Field Id)) (bs r : List UInt8) (cs : Composite Id)
    (h : decodeCompositeAsFields reg al fs bs = (.ok cs, r)) : cs.len = fs.length ∧
      ((∃ ns, cs = .named ns ∧ fs.map (fun f => f.name) = ns.map (fun p => some p.1)) ↔ (fs ≠ [] ∧ ∀ f ∈ fs, f.name ≠ none)) ∧
      ((∃ vs, cs = .unnamed vs) ↔ (fs = [] ∨ ∃ f ∈ fs, f.name = none)) := by
  obtain ⟨-, -, p, vs, -, hall, hs⟩ := (C27_fields_exact reg al fs bs r cs).1 h
  have hl := (scaleAll_length hall).symm
  rw [List.length_map] at hl
  exact ⟨by rw [hasShape_len hs hl, hl], hasShape_named_iff hs hl⟩

/-- C40 is about something: a variant without fields, and one with a named field. -/
example : decodeAsType exReg (fun _ => true) 4 [0] = .ok (.mk (.variant (.mk ['A'] (.unnamed []))) (), []) ∧
    decodeAsType exReg (fun _ => true) 4 [7, 0] = .ok (.mk (.variant (.mk ['C'] (.named [(['x'], .mk (.primitive (.bool false)) ())]))) (), []) :=
  ⟨decodeWith_eq.2 ⟨2, rfl⟩, decodeWith_eq.2 ⟨2, rfl⟩⟩

end SV
