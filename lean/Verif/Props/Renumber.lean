import Mathlib.Order.WellFounded
import Mathlib.Order.OrderIsoNat
import Verif.Proofs.Renumber
import Verif.Props.Bottomless
import Verif.Props.Value
/-
C92: ids are only names, and only the types within a type matter to what is done at it.
-/
namespace SV

variable {Id Id' Γ : Type}

/-- C92: decoding with a registry that has the types within `t` under other ids: the same, and the contexts are the other ids. (With contexts that are not ids: the same.) -/
theorem C92_decode (f : Id → Id') (res : Table Id) (res' : Table Id') (t : Id) (h : Renumbers f res res' t) (al : Nat → Bool) (bs : List UInt8) :
    decodeT id res' al (f t) bs = (decodeT id res al t bs).map (decodeRenumber f) ∧
    decodeT (fun _ => ()) res' al (f t) bs = decodeT (fun _ => ()) res al t bs := by
  have hm : ∀ (ctx : Id → Id) n m r, n ≤ m → decT res al ctx n false t bs = some r → decT res al ctx m false t bs = some r :=
    fun ctx n m r hnm hr => decT_mono res al ctx hnm false t bs r hr
  constructor
  · rw [decodeT, decodeT, ← limit_map _ (hm id)]
    congr 1
    funext n
    rw [decT_ren h.set al _ n false t .self, show (fun x => id (f x)) = (fun x => f (id x)) from rfl, decT_map f]
    show _ = Option.map _ _
    unfold mapDec
    congr 1
    funext x
    rcases x with ⟨v, r⟩ | e | _ <;> rfl
  · rw [decodeT, decodeT]
    congr 1
    funext n
    rw [decT_ren h.set al _ n false t .self]

/-- C92: decoding of fields, with any contexts. -/
theorem C92_decode_fields (f : Id → Id') (res : Table Id) (res' : Table Id') (fs : List (Field Id)) (h : ∀ x ∈ fs, Renumbers f res res' x.id) (al : Nat → Bool) (ctx : Id' → Γ) (bs : List UInt8) :
    decodeFieldsT ctx res' al (fs.map (Field.renumber f)) bs = decodeFieldsT (fun u => ctx (f u)) res al fs bs := by
  rw [decodeFieldsT, decodeFieldsT]
  congr 1
  funext n
  exact decComposite_ren (fun x hx bs => decT_ren (h x hx).set al ctx n false x.id .self bs) bs

/-- C92: decoding with tracing. -/
theorem C92_tracing (f : Id → Id') (res : Table Id) (res' : Table Id') (t : Id) (h : Renumbers f res res' t) (al : Nat → Bool) (bs : List UInt8) :
    traceDecodeT res' al (f t) bs = (traceDecodeT res al t bs).map (traceRenumber f) := by
  rw [traceDecodeT, traceDecodeT, ← limit_map _ (fun n m r hnm hr => trT_mono res al hnm false [] t bs r hr)]
  congr 1
  funext n
  exact trT_ren h.set al n false t .self [] bs

/-- C92: encoding: the same bytes, or the same error with the other ids. -/
theorem C92_encode (f : Id → Id') (res : Table Id) (res' : Table Id') (t : Id) (h : Renumbers f res res' t) (cc : Bool) (v : Value Γ) (out : List UInt8) :
    v.encodeT res' cc (f t) out = (v.encodeT res cc t out).map (encRenumber f) :=
  ren_value h.set cc v .self out

/-- C92: encoding as fields. -/
theorem C92_encode_fields (f : Id → Id') (res : Table Id) (res' : Table Id') (fs : List (Field Id)) (h : ∀ x ∈ fs, Renumbers f res res' x.id) (cc : Bool) (v : Value Γ) (out : List UInt8) :
    v.encodeAsFieldsT res' cc (fs.map (Field.renumber f)) out = (v.encodeAsFieldsT res cc fs out).map (encRenumber f) := by
  obtain ⟨d, x⟩ := v
  cases d with
  | composite c =>
    have hS : RenSet f res res' (fun u => ∃ x ∈ fs, WithinType res x.id u) :=
      ⟨fun _ _ _ ⟨x, hx, ha⟩ hd hw => ⟨x, hx, .step ha hd hw⟩, fun u ⟨x, hx, hu⟩ => h x hx u hu⟩
    exact ren_fields (ren_children hS cc c) (fun x hx => ⟨x, hx, .self⟩) out
  | variant w => rfl
  | primitive p => rfl
  | bitSequence b => rfl

/-- C92: so what is in a registry besides the types within `t` has no influence. -/
theorem C92_local (res res' : Table Id) (t : Id) (h : ∀ u, WithinType res t u → res' u = res u) (al : Nat → Bool) (bs out : List UInt8) (cc : Bool) (v : Value Γ) :
    decodeT id res' al t bs = decodeT id res al t bs ∧ traceDecodeT res' al t bs = traceDecodeT res al t bs ∧ v.encodeT res' cc t out = v.encodeT res cc t out := by
  have hr : Renumbers id res res' t := by
    intro u hu
    rw [id, h u hu]
    have hf : (Field.renumber id : Field Id → Field Id) = id := rfl
    have hv : (VariantDef.renumber id : VariantDef Id → VariantDef Id) = id := by
      funext d; simp [VariantDef.renumber, hf]
    cases res u with
    | none => rfl
    | some d => cases d <;> simp [TypeDef.renumber, hf, hv]
  have hid : ∀ v : Value Id, v.mapContext id = v := fun v => C01_map_id v
  refine ⟨?_, ?_, ?_⟩
  · have := (C92_decode id res res' t hr al bs).1
    rw [id] at this
    rw [this]
    rcases decodeT id res al t bs with _ | ⟨v, r⟩ | e | _ <;> simp [decodeRenumber, hid]
  · have := C92_tracing id res res' t hr al bs
    rw [id] at this
    rw [this]
    rcases traceDecodeT res al t bs with _ | ⟨v, r⟩ | e | _
    · rfl
    · simp [traceRenumber, hid]
    · cases e <;> simp [traceRenumber, hid]
    · rfl
  · have := C92_encode id res res' t hr cc v out
    rw [id] at this
    rw [this]
    rcases v.encodeT res cc t out with _ | ⟨⟨p, k⟩ | _, o⟩
    · rfl
    · cases k <;> rfl
    · rfl

/-- C92: with the registries of the other properties: the same bytes, errors and values. -/
theorem C92_same (f : Id → Id') (reg : Reg Id) (reg' : Reg Id') (t : Id) (h : Renumbers f reg.resolve reg'.resolve t) (al : Nat → Bool) (bs out : List UInt8) (cc : Bool) (v : Value Γ) :
    decodeWith id reg' al (f t) bs = decodeRenumber f (decodeWith id reg al t bs) ∧
    traceDecode reg' al (f t) bs = traceRenumber f (traceDecode reg al t bs) ∧
    v.encode reg' cc (f t) out = encRenumber f (v.encode reg cc t out) := by
  refine ⟨?_, ?_, ?_⟩
  · have := (C92_decode f _ _ t h al bs).1
    rw [(C85_registry id reg' al (f t) bs).2, (C85_registry id reg al t bs).2] at this
    exact Option.some.inj this
  · have := C92_tracing f _ _ t h al bs
    rw [C85_tracing_registry, C85_tracing_registry] at this
    exact Option.some.inj this
  · have := C92_encode f _ _ t h cc v out
    rw [(C86_registry reg' cc v (f t) [] out).1, (C86_registry reg cc v t [] out).1] at this
    exact Option.some.inj this

theorem inlineIn_iff {res : Table Id} {t u : Id} : InlineIn res t u ↔ ∃ d, res t = some d ∧ u ∈ d.inline := by
  constructor
  · rintro (⟨h, hx⟩ | ⟨h, hu⟩ | h | h)
    · exact ⟨_, h, List.mem_map_of_mem hx⟩
    · exact ⟨_, h, hu⟩
    · exact ⟨_, h, by simp [TypeDef.inline]⟩
    · exact ⟨_, h, by simp [TypeDef.inline]⟩
  · rintro ⟨d, h, hu⟩
    cases d with
    | composite fs => obtain ⟨x, hx, rfl⟩ := List.mem_map.1 hu; exact .field h hx
    | tuple ts => exact .tuple h hu
    | array w n => rw [TypeDef.inline, List.mem_singleton] at hu; subst hu; exact .array h
    | compact w => rw [TypeDef.inline, List.mem_singleton] at hu; subst hu; exact .compact h
    | variant vs => cases hu
    | sequence w => cases hu
    | primitive p => cases hu
    | bitSequence s o => cases hu

theorem nat_le_sum {a : Nat} {l : List Nat} (h : a ∈ l) : a ≤ l.sum := by
  induction l with
  | nil => cases h
  | cons b l ih =>
    rw [List.sum_cons]
    rcases List.mem_cons.1 h with rfl | h
    · omega
    · have := ih h; omega

/-- C92: the registries of the other properties are no restriction, except for types that contain themselves inline: to any table, and any type in it, there is one with the same types within that type, just if there is no chain of
types inline without end there. -/
theorem C92_registry (res : Table Id) (t : Id) :
    (∃ reg : Reg Id, ∀ u, WithinType res t u → reg.resolve u = res u) ↔ ∀ u, WithinType res t u → ¬ InlineChain res u := by
  constructor
  · rintro ⟨reg, h⟩ u hu ⟨chain, h0, hc⟩
    have key : ∀ n, WithinType res t (chain n) ∧ reg.rank (chain n) + n ≤ reg.rank u := by
      intro n
      induction n with
      | zero => rw [h0]; exact ⟨hu, le_refl _⟩
      | succ n ih =>
        obtain ⟨d, hd, hm⟩ := inlineIn_iff.1 (hc n)
        have hm' : chain (n + 1) ∈ d.mentions := by
          cases d <;> simp_all [TypeDef.inline, TypeDef.mentions]
        have := reg.rank_lt _ d _ (by rw [h _ ih.1, hd]) hm
        exact ⟨.step ih.1 hd hm', by omega⟩
    have := (key (reg.rank u + 1)).2
    omega
  · intro h
    classical
    let R : Id → Id → Prop := fun w u => WithinType res t u ∧ ∃ d, res u = some d ∧ w ∈ d.inline
    have wf : WellFounded R := by
      rw [wellFounded_iff_isEmpty_descending_chain]
      refine ⟨fun ⟨chain, hc⟩ => ?_⟩
      exact h (chain 0) (hc 0).1 ⟨chain, rfl, fun n => inlineIn_iff.2 (hc n).2⟩
    let step : ∀ u, (∀ w, R w u → Nat) → Nat := fun u ih => match res u with
      | none => 0
      | some d => (d.inline.map (fun w => if hw : R w u then ih w hw + 1 else 0)).sum
    refine ⟨⟨fun u => if WithinType res t u then res u else none, wf.fix step, ?_⟩, fun u hu => by simp [hu]⟩
    intro u d w hd hw
    by_cases hu : WithinType res t u
    · simp only [hu, if_true] at hd
      rw [wf.fix_eq step u]
      show _ < step u _
      simp only [step, hd]
      have hR : R w u := ⟨hu, d, hd, hw⟩
      have hle : wf.fix step w + 1 ≤ (d.inline.map (fun w => if hw : R w u then wf.fix step w + 1 else 0)).sum := by
        refine nat_le_sum (List.mem_map.2 ⟨w, hw, ?_⟩)
        rw [dif_pos hR]
      exact hle
    · simp [hu] at hd

/-- C92: so what the other properties say of registries holds of any table at such a type: its functions return, and do what they do with that registry. -/
theorem C92_transfer (res : Table Id) (t : Id) (h : ∀ u, WithinType res t u → ¬ InlineChain res u) :
    ∃ reg : Reg Id, (∀ u, WithinType res t u → reg.resolve u = res u) ∧
      (∀ al bs, decodeT id res al t bs = some (decodeWith id reg al t bs) ∧ traceDecodeT res al t bs = some (traceDecode reg al t bs)) ∧
      ∀ (cc : Bool) (v : Value Γ) out, v.encodeT res cc t out = some (v.encode reg cc t out) := by
  obtain ⟨reg, hr⟩ := (C92_registry res t).2 h
  refine ⟨reg, hr, fun al bs => ?_, fun cc v out => ?_⟩
  · obtain ⟨h1, h2, -⟩ := C92_local res reg.resolve t hr al bs [] false (Value.mk (.bitSequence []) ())
    exact ⟨h1 ▸ (C85_registry id reg al t bs).2, h2 ▸ C85_tracing_registry reg al t bs⟩
  · rw [← (C92_local res reg.resolve t hr (fun _ => true) [] out cc v).2.2]
    exact (C86_registry reg cc v t [] out).1

/-! ### C92 is about something -/

/-- `struct { a: u8, b: Vec<u8> }` (type 50), `u8` (type 7), `Vec<u8>` (type 9), and a type that does not matter. -/
def exBig : Table Nat
  | 50 => some (.composite [⟨some "a".toList, 7⟩, ⟨some "b".toList, 9⟩])
  | 7 => some (.primitive .u8)
  | 9 => some (.sequence 7)
  | 8 => some (.compact 8)
  | _ => none

/-- The same without the last one, as types 0, 1, 2. -/
def exSmall : Table Nat
  | 0 => some (.composite [⟨some "a".toList, 1⟩, ⟨some "b".toList, 2⟩])
  | 1 => some (.primitive .u8)
  | 2 => some (.sequence 1)
  | _ => none

def exNew : Nat → Nat
  | 50 => 0
  | 7 => 1
  | 9 => 2
  | _ => 3

theorem exBig_within : ∀ u, WithinType exBig 50 u → u = 50 ∨ u = 7 ∨ u = 9 := by
  intro u h
  induction h with
  | self => simp
  | step _ hd hw ih =>
    rcases ih with rfl | rfl | rfl <;> simp only [exBig, Option.some.injEq] at hd <;> subst hd <;> simp [TypeDef.mentions] at hw <;> omega

theorem exBig_renumbers : Renumbers exNew exBig exSmall 50 := by
  intro u h
  rcases exBig_within u h with rfl | rfl | rfl <;> rfl

/-- The bytes of `{ a: 5, b: [6, 7] }`. -/
example : decodeT id exSmall (fun _ => true) 0 [5, 8, 6, 7] = (decodeT id exBig (fun _ => true) 50 [5, 8, 6, 7]).map (decodeRenumber exNew) :=
  (C92_decode exNew exBig exSmall 50 exBig_renumbers _ _).1
example : decT exBig (fun _ => true) id 3 false 50 [5, 8, 6, 7] = some (.ok (.mk (.composite (.named [("a".toList, .mk (.primitive (.u128 ⟨5, by decide⟩)) 7),
    ("b".toList, .mk (.composite (.unnamed [.mk (.primitive (.u128 ⟨6, by decide⟩)) 7, .mk (.primitive (.u128 ⟨7, by decide⟩)) 7])) 9)])) 50, [])) := rfl
/-- There is a registry with these types; there is none with the type that does not matter. -/
example : ∃ reg : Reg Nat, ∀ u, WithinType exBig 50 u → reg.resolve u = exBig u := by
  refine (C92_registry exBig 50).2 (fun u hu hc => ?_)
  obtain ⟨chain, h0, hc⟩ := hc
  have key : ∀ u, u = 7 ∨ u = 9 → ∀ d, exBig u = some d → d.inline = [] := by
    rintro u (rfl | rfl) d hd <;> simp only [exBig, Option.some.injEq] at hd <;> subst hd <;> rfl
  obtain ⟨d, hd, hm⟩ := inlineIn_iff.1 (hc 0)
  obtain ⟨d', hd', hm'⟩ := inlineIn_iff.1 (hc 1)
  rw [h0] at hd
  rcases exBig_within u hu with rfl | h
  · simp only [exBig, Option.some.injEq] at hd
    subst hd
    have : chain 1 = 7 ∨ chain 1 = 9 := by simpa [TypeDef.inline] using hm
    rw [key _ this d' hd'] at hm'
    cases hm'
  · rw [key u h d hd] at hm
    cases hm
example : ¬ ∃ reg : Reg Nat, ∀ u, WithinType exBig 8 u → reg.resolve u = exBig u := by
  rw [C92_registry]
  intro h
  exact h 8 .self ⟨fun _ => 8, rfl, fun _ => .compact rfl⟩

end SV
