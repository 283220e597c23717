import Verif.Proofs.EncSize
import Verif.Props.Emit
import Verif.Props.Express
import Verif.Props.Size
import Verif.Props.EncCalls
import Verif.Props.EncodeStep
/-
C90: how many bytes values encode to.
-/
namespace SV

variable {Id Γ : Type}

/-- C90: at any type (the names of fields being distinct), a value without 256 bit numbers encodes to at most 17 bytes for each value, each character of strings, and each bit in it; names do not count. -/
theorem C90_bytes (reg : Reg Id) (hr : NamesApart reg) (cc : Bool) (v : Value Γ) (hs : Sized v) (hv : ¬ Has256 v) (t : Id) (bs : List UInt8) (h : Okay (v.encode reg cc t) bs) :
    bs.length ≤ 17 * v.size := encode_length hr cc (Nat.le_refl _) v.size v (Nat.le_refl _) hs (.inr hv) t bs h

/-- C90: and if there are 256 bit numbers, at most 513. -/
theorem C90_bytes_256 (reg : Reg Id) (hr : NamesApart reg) (cc : Bool) (v : Value Γ) (hs : Sized v) (t : Id) (bs : List UInt8) (h : Okay (v.encode reg cc t) bs) :
    bs.length ≤ 513 * v.size := encode_length hr cc (by omega) v.size v (Nat.le_refl _) hs (.inl (Nat.le_refl _)) t bs h

/-- C90: the same for a list of fields. -/
theorem C90_fields (reg : Reg Id) (hr : NamesApart reg) (cc : Bool) (v : Value Γ) (hs : Sized v) (fs : List (Field Id)) (hf : Apart fs) (bs : List UInt8) (h : Okay (v.encodeAsFields reg cc fs) bs) :
    (¬ Has256 v → bs.length ≤ 17 * v.size) ∧ bs.length ≤ 513 * v.size := by
  obtain ⟨c, x, rfl, hb⟩ := (C68_fields reg cc v fs bs).1 h
  have hc : (Value.mk (.composite c) x).fields? = some c := rfl
  have key : ∀ K, 17 ≤ K → (513 ≤ K ∨ ¬ Has256 (Value.mk (.composite c) x)) → bs.length ≤ K * (Value.mk (.composite c) x).size := by
    intro K hK h256
    have := fieldsBy_length (K := K) hb hf (fun w hw t bs hb => by
      have hw' : w ∈ (Value.mk (.composite c) x).children := by rw [fields_children hc]; exact hw
      exact encode_length hr cc hK w.size w (Nat.le_refl _) (sized_sub hs hw') (h256.imp_right (fun h h' => h (has256_sub hw' h'))) t bs hb)
    rw [size_fields hc, Nat.mul_add]
    omega
  exact ⟨fun h => key 17 (Nat.le_refl _) (.inr h), key 513 (by omega) (.inl (Nat.le_refl _))⟩

theorem sub_size {v w : Value Γ} (h : Sub v w) : w.size ≤ v.size := by
  induction h with
  | self => exact Nat.le_refl _
  | child h _ ih => have := child_size h; omega

/-- Values that are small enough are not too long anywhere. -/
theorem sized_of_size {v : Value Γ} (h : v.size < 2 ^ 30) : Sized v := by
  refine ⟨fun w hw => ⟨fun c hc => ?_, fun s hs => ?_⟩, fun w b hw hb => ?_⟩
  · have h1 := sub_size hw
    have h2 := size_fields hc
    have h3 := length_le_valuesSize c.vals
    have e : c.vals.length = c.len := by cases c <;> simp [Composite.vals, Composite.len]
    omega
  · have h1 := sub_size hw
    rcases w with ⟨d, x⟩
    cases hs
    have := utf8_le s
    simp only [Value.size] at h1
    omega
  · have h1 := sub_size hw
    rcases w with ⟨d, x⟩
    cases hb
    simp only [Value.size] at h1
    omega

/-- C90: so a text (of less than 2^30 characters) encodes to at most 17 bytes for each character that was read. -/
theorem C90_text {u : Uni} (reg : Reg Id) (hr : NamesApart reg) (cc : Bool) (s rest : Str) (hl : s.length < 2 ^ 30) (v : Value Unit) (h : fromStr u s = some (.ok v, rest)) (t : Id) (bs : List UInt8)
    (hb : Okay (v.encode reg cc t) bs) : bs.length + 17 * rest.length ≤ 17 * s.length := by
  have h1 := C59_size s rest v h
  have h2 := C90_bytes reg hr cc v (sized_of_size (by omega)) (expressible_no256 ((C71_expressible v).2.1 ⟨s, rest, h⟩)) t bs hb
  omega

/-- A registry with structs that have two fields of the same name: type `n + 1` is `{ a: n, a: n }`, and type 0 is `u8`. -/
def twiceReg : Reg Nat where
  resolve
    | 0 => some (.primitive .u8)
    | n + 1 => some (.composite [⟨some ['a'], n⟩, ⟨some ['a'], n⟩])
  rank t := t
  rank_lt := by
    intro t d u h hu
    match t, h with
    | 0, h => cases h; simp [TypeDef.inline] at hu
    | n + 1, h => cases h; simp [TypeDef.inline] at hu; omega

/-- `{ a: { a: .. 7 } }`. -/
def onceEach : Nat → Value Unit
  | 0 => .u128 ⟨7, by decide⟩
  | n + 1 => .mk (.composite (.named [(['a'], onceEach n)])) ()

theorem sized_onceEach : ∀ n, Sized (onceEach n)
  | 0 => sized_prim (by simp)
  | n + 1 => sized_named (by simp) (by intro p hp; simp at hp; subst hp; exact sized_onceEach n)

/-- C90: without distinct names there is no such bound: with fields of the same name each level doubles the bytes. -/
theorem C90_same_names (cc : Bool) (n : Nat) : (onceEach n).size = n + 1 ∧ Okay ((onceEach n).encode twiceReg cc n) (List.replicate (2 ^ n) 7) := by
  induction n with
  | zero =>
    refine ⟨rfl, (C68_rules twiceReg cc _ (sized_onceEach 0) 0 _).2 ?_⟩
    refine .u128 (u := 0) ⟨.refl _, ?_⟩ (.uint (p := .u8) (k := 1) rfl .u8 ⟨rfl, by decide⟩)
    intro w hw
    cases hw <;> (rename_i h; cases h)
  | succ n ih =>
    refine ⟨by simp [onceEach, Value.size, fieldsSize, ih.1]; omega, (C68_rules twiceReg cc _ (sized_onceEach (n + 1)) (n + 1) _).2 ?_⟩
    have hb : List.replicate (2 ^ (n + 1)) (7 : UInt8) = List.replicate (2 ^ n) 7 ++ (List.replicate (2 ^ n) 7 ++ []) := by
      rw [List.append_nil, List.replicate_append_replicate]; congr 1; omega
    rw [hb]
    have hl : LastNamed [(['a'], onceEach n)] ['a'] (onceEach n) := ⟨[], [], rfl, by simp⟩
    refine .composite (.struct (w := n + 1) (fs := [⟨some ['a'], n⟩, ⟨some ['a'], n⟩]) (.inl ⟨_, rfl⟩) (.done ?_) rfl (by simp) (.byName (by simp) ⟨_, List.mem_cons_self .., by simp⟩ ?_))
    · intro u hu
      cases hu with
      | composite h => cases h
      | tuple h => cases h
    · exact .cons hl ih.2 (.cons hl ih.2 .nil)

/-! ### Cases -/

/-- Type 0 is `Vec<u128>`, 1 is `u128`, 2 is `Compact<u128>`. -/
def exWide : Reg Nat where
  resolve t := match t with | 0 => some (.sequence 1) | 1 => some (.primitive .u128) | 2 => some (.compact 1) | _ => none
  rank t := t
  rank_lt := by
    intro t d u h hu
    split at h <;> cases h <;> simp [TypeDef.inline] at hu <;> omega

theorem exWide_apart : NamesApart exWide := by
  refine ⟨fun t fs h => ?_, fun t ds h => ?_⟩ <;> · simp only [exWide] at h; split at h <;> cases h

theorem exWide_inner : ∀ t, t = 1 ∨ t = 2 → Innermost exWide t t := by
  rintro t (rfl | rfl) <;> exact ⟨.refl _, fun w hw => by cases hw <;> (rename_i h; cases h)⟩

/-- Both bounds are reached: a 256 bit number as a sequence of 128 bit numbers takes 513 bytes, .. -/
example (b : Bytes32) : ∃ bs, Okay ((Value.mk (.primitive (.u256 b)) ()).encode exWide true 0) bs ∧ bs.length = 513 := by
  have h : ∀ l : List UInt8, ∃ bs, BytesBy exWide 1 l bs ∧ bs.length = 16 * l.length := by
    intro l
    induction l with
    | nil => exact ⟨[], .nil, rfl⟩
    | cons b l ih =>
      obtain ⟨bs, h1, h2⟩ := ih
      have hb : IsLe 16 b.toNat (b :: List.replicate 15 0) := ⟨rfl, by simp [leNum, List.mapIdx_cons, List.replicate_succ]⟩
      exact ⟨_, .cons (exWide_inner 1 (.inl rfl)) (.uint (p := .u128) rfl .u128 hb) h1, by simp [h2]; omega⟩
  obtain ⟨bs, h1, h2⟩ := h b.bytes
  refine ⟨[128] ++ bs, (C68_rules exWide true _ (sized_prim (by simp)) 0 _).2 (.u256 (.sequence (w := 1) (.done 0) rfl (.one (by decide) ⟨rfl, by decide⟩) h1)), ?_⟩
  have := b.len
  simp [h2, this]

/-- .. and a large number in compact form 17. -/
example : ∃ bs, Okay ((Value.u128 ⟨2 ^ 128 - 1, by decide⟩ : Value Unit).encode exWide true 2) bs ∧ bs.length = 17 := by
  have hin := exWide_inner
  refine ⟨compactEnc (2 ^ 128 - 1), (C68_rules exWide true _ (sized_prim (by simp)) 2 _).2 (.u128 (hin 2 (.inr rfl)) ?_), by decide +kernel⟩
  exact .compact (n := 2 ^ 128 - 1) (w := 1) (x := 1) (p := .u128) (k := 16) rfl (hin 1 (.inl rfl)) rfl .u128 (by decide) (isCompact_compactEnc (by decide))

end SV
