import Verif.Proofs.EncodeStep
import Verif.Proofs.EncCalls
import Verif.Proofs.TextLen
/-
How many bytes values encode to (C90).
-/
namespace SV

variable {Id Γ : Type}

theorem compact_few {n : Nat} {p : List UInt8} (h : IsCompact n p) {m : Nat} (hm : 4 ≤ m) (hn : n < 256 ^ m) : p.length ≤ m + 1 := by
  cases h with
  | one _ h => rw [h.1]; omega
  | two _ _ h => rw [h.1]; omega
  | four _ _ h => rw [h.1]; omega
  | @big k b bs h1 h2 h3 h4 h5 =>
    rw [List.length_cons, h5.1]
    rcases h3 with h3 | h3
    · omega
    · have : k - 1 < m := by
        by_cases hlt : k - 1 < m
        · exact hlt
        · have : (256 : Nat) ^ m ≤ 256 ^ (k - 1) := Nat.pow_le_pow_right (by omega) (by omega)
          omega
      omega

theorem compact_byte {n : Nat} {p : List UInt8} (h : IsCompact n p) (hn : n < 256) : p.length ≤ 2 := by
  cases h with
  | one _ h => rw [h.1]; omega
  | two _ _ h => rw [h.1]
  | four _ _ h => omega
  | big h1 => omega

theorem compact_32 {p : List UInt8} (h : IsCompact 32 p) : p.length = 1 := by
  cases h with
  | one _ h => exact h.1
  | two _ _ h => omega
  | four _ _ h => omega
  | big h1 => omega

theorem uintType_le16 {p : Prim} {k : Nat} (h : UintType p k) : k ≤ 16 := by cases h <;> omega

theorem intType_le {p : Prim} {k : Nat} (h : IntType p k) : k ≤ 16 := by cases h <;> omega

theorem numAt_length {reg : Reg Id} {cc : Bool} {u : Id} {n : Int} {bs : List UInt8} (h : NumAt reg cc u n bs) : bs.length ≤ 17 := by
  cases h with
  | uint _ h1 h2 => have := uintType_le16 h1; rw [h2.1]; omega
  | int _ h1 h2 => have := intType_le h1; rw [h2.1]; omega
  | char _ _ h2 => rw [h2.1]; omega
  | compact _ _ _ h1 h2 h3 =>
    exact compact_few h3 (m := 16) (by omega) (Nat.lt_of_lt_of_le h2 (Nat.pow_le_pow_right (by omega) (uintType_le16 h1)))

theorem numAt_byte {reg : Reg Id} {cc : Bool} {u : Id} {b : UInt8} {bs : List UInt8} (h : NumAt reg cc u b.toNat bs) : bs.length ≤ 16 := by
  have hb := b.toNat_lt
  generalize hn : (b.toNat : Int) = n at h
  cases h with
  | uint _ h1 h2 => have := uintType_le16 h1; rw [h2.1]; omega
  | int _ h1 h2 => have := intType_le h1; rw [h2.1]; omega
  | char _ _ h2 => rw [h2.1]; omega
  | compact _ _ _ h1 h2 h3 => have := compact_byte h3 (by omega); omega

theorem bytesBy_length {reg : Reg Id} {u : Id} {l bs : List UInt8} (h : BytesBy reg u l bs) : bs.length ≤ 16 * l.length := by
  induction h with
  | nil => simp
  | cons _ h _ ih =>
    have := numAt_byte h
    simp only [List.length_append, List.length_cons]
    omega

theorem bytes32By_length {reg : Reg Id} {t : Id} {b : Bytes32} {bs : List UInt8} (h : Bytes32By reg t b bs) : bs.length ≤ 513 := by
  have hb : b.bytes.length = 32 := b.len
  cases h with
  | array _ _ h => have := bytesBy_length h; omega
  | sequence _ _ h1 h => have := bytesBy_length h; have := compact_32 h1; rw [List.length_append]; omega

theorem utf8_le (s : Str) : (utf8Bytes s).length ≤ 4 * s.length := by
  induction s with
  | nil => simp [utf8Bytes]
  | cons c s ih =>
    have h : (String.utf8EncodeChar c).length ≤ 4 := by rw [String.length_utf8EncodeChar]; exact Char.utf8Size_le_four c
    simp only [utf8Bytes, List.flatMap_cons, List.length_append, List.length_cons] at ih ⊢
    omega

theorem bits_length {s : BitStore} {o : BitOrder} {b : List Bool} {q : List UInt8} (h : IsBits True s o b q) : q.length ≤ b.length + 8 := by
  have h1 := h.1
  have : wordBytes s ≤ 8 := by cases s <;> decide
  omega

theorem named_total {l : List (Str × Value Γ)} {ks : List Str} (hk : ks.Nodup) :
    total (fun k => total (fun p : Str × Value Γ => if p.1 == k then p.2.size else 0) l) ks ≤ fieldsSize l := by
  induction l with
  | nil =>
    have : ∀ ks : List Str, total (fun k => total (fun p : Str × Value Γ => if p.1 == k then p.2.size else 0) []) ks = 0 := by
      intro ks
      induction ks with
      | nil => rfl
      | cons k ks ih => rw [total, ih]; rfl
    rw [this]; exact Nat.zero_le _
  | cons p l ih =>
    have := total_add (fun k => if p.1 == k then p.2.size else 0) (fun k => total (fun p : Str × Value Γ => if p.1 == k then p.2.size else 0) l) ks
    rw [show (fun k => total (fun p : Str × Value Γ => if p.1 == k then p.2.size else 0) (p :: l)) =
      fun k => (if p.1 == k then p.2.size else 0) + total (fun p : Str × Value Γ => if p.1 == k then p.2.size else 0) l from rfl, this]
    have h2 := total_once p.1 p.2.size hk
    rcases p with ⟨n, v⟩
    simp only [fieldsSize]
    simp only at h2
    omega

theorem lastNamed_le {l : List (Str × Value Γ)} {n : Str} {v : Value Γ} (h : LastNamed l n v) :
    v.size ≤ total (fun p : Str × Value Γ => if p.1 == n then p.2.size else 0) l := by
  obtain ⟨a, b, rfl, -⟩ := h
  rw [total_append, total]
  simp only [beq_self_eq_true, if_true]
  omega

theorem lastNamed_mem {l : List (Str × Value Γ)} {n : Str} {v : Value Γ} (h : LastNamed l n v) : v ∈ l.map (fun p => p.2) := by
  obtain ⟨a, b, rfl, -⟩ := h
  simp

variable {K : Nat} {E : EncRel Id Γ}

theorem allBy_length {ts : List Id} {vs : List (Value Γ)} {bs : List UInt8} (h : AllBy E ts vs bs) (hE : ∀ v ∈ vs, ∀ t bs, E v t bs → bs.length ≤ K * v.size) :
    bs.length ≤ K * valuesSize vs := by
  induction h with
  | nil => simp
  | cons h _ ih =>
    have h1 := hE _ (by simp) _ _ h
    have h2 := ih (fun v hv => hE v (by simp [hv]))
    simp only [List.length_append, valuesSize, Nat.mul_add]
    omega

theorem namedBy_length {l : List (Str × Value Γ)} {fs : List (Field Id)} {bs : List UInt8} (h : NamedBy E l fs bs)
    (hE : ∀ v ∈ l.map (fun p => p.2), ∀ t bs, E v t bs → bs.length ≤ K * v.size) :
    bs.length ≤ K * total (fun k => total (fun p : Str × Value Γ => if p.1 == k then p.2.size else 0) l) (fs.map (fun f => f.name.getD [])) := by
  induction h with
  | nil => simp
  | @cons f fs v bs bs' h1 h2 _ ih =>
    have h3 := hE _ (lastNamed_mem h1) _ _ h2
    have h4 : K * v.size ≤ _ := Nat.mul_le_mul_left K (lastNamed_le h1)
    simp only [List.length_append, List.map_cons, total, Nat.mul_add]
    omega

theorem fieldsSize_vals (l : List (Str × Value Γ)) : valuesSize (l.map (fun p => p.2)) = fieldsSize l := by
  induction l with
  | nil => rfl
  | cons p l ih => rcases p with ⟨n, v⟩; simp only [List.map_cons, valuesSize, fieldsSize, ih]

theorem fieldsBy_length {c : Composite Γ} {fs : List (Field Id)} {bs : List UInt8} (h : FieldsBy E c fs bs) (hf : Apart fs)
    (hE : ∀ v ∈ c.vals, ∀ t bs, E v t bs → bs.length ≤ K * v.size) : bs.length ≤ K * valuesSize c.vals := by
  cases h with
  | @byName l fs bs _ h1 h2 =>
    have hn : (fs.map (fun f => f.name.getD [])).Nodup := by
      rcases hf with hf | hf
      · exact hf
      · obtain ⟨f, hm, hne⟩ := h1; exact absurd (hf f hm) hne
    refine Nat.le_trans (namedBy_length h2 hE) (Nat.mul_le_mul_left K ?_)
    rw [show (Composite.named l).vals = l.map (fun p => p.2) from rfl, fieldsSize_vals]
    exact named_total hn
  | byOrder _ h => exact allBy_length h hE

theorem length_le_valuesSize (vs : List (Value Γ)) : vs.length ≤ valuesSize vs := by
  induction vs with
  | nil => simp
  | cons v vs ih =>
    have : 1 ≤ v.size := deep_le_size .here
    simp only [List.length_cons, valuesSize]; omega

theorem directBy_length {reg : Reg Id} (hr : NamesApart reg) {c : Composite Γ} {t : Id} {bs : List UInt8} (h : DirectBy reg E c t bs) (hK : 17 ≤ K) (hl : c.vals.length < 2 ^ 32)
    (hE : ∀ v ∈ c.vals, ∀ t bs, E v t bs → bs.length ≤ K * v.size) : bs.length ≤ 13 + K * valuesSize c.vals := by
  have one : ∀ v t bs, c.vals = [v] → E v t bs → bs.length ≤ 13 + K * valuesSize c.vals := by
    intro v t bs h1 h2
    have := hE v (by simp [h1]) t bs h2
    rw [h1]; simp only [valuesSize, Nat.add_zero]; omega
  cases h with
  | struct _ _ h1 _ h2 => exact Nat.le_trans (fieldsBy_length h2 (hr.1 _ _ h1) hE) (by omega)
  | inStruct _ _ _ h1 h2 => exact one _ _ _ (by rw [h1]; rfl) h2
  | tuple _ _ _ _ h2 => exact Nat.le_trans (allBy_length h2 hE) (by omega)
  | inTuple _ _ _ h1 h2 => exact one _ _ _ h1 h2
  | inWrapper _ _ _ _ h1 h2 => exact one _ _ _ h1 h2
  | sequence _ h1 h2 =>
    have := compact_few h1 (m := 4) (by omega) (by omega)
    have := allBy_length h2 hE
    rw [List.length_append]; omega
  | array _ h2 => exact Nat.le_trans (allBy_length h2 hE) (by omega)
  | @bits s o b p q _ h1 h2 h3 =>
    have hb : c.vals.length = b.length := h1.length_eq
    have := compact_few h2 (m := 4) (by omega) (by omega)
    have := bits_length h3
    have h4 := length_le_valuesSize c.vals
    have h5 : 1 * valuesSize c.vals ≤ K * valuesSize c.vals := Nat.mul_le_mul_right _ (by omega)
    rw [List.length_append]; omega
  | other _ _ _ _ h1 h2 => exact one _ _ _ h1 h2

theorem has256_sub {v w : Value Γ} (hw : w ∈ v.children) (h : Has256 w) : Has256 v := by
  rcases v with ⟨⟨⟨fs⟩ | ⟨vs⟩⟩ | ⟨⟨_, ⟨fs⟩ | ⟨vs⟩⟩⟩ | _ | _, x⟩
  · obtain ⟨p, hp, rfl⟩ := List.mem_map.1 hw; exact .named hp h
  · exact .unnamed hw h
  · obtain ⟨p, hp, rfl⟩ := List.mem_map.1 hw; exact .vnamed hp h
  · exact .vunnamed hw h
  · cases hw
  · cases hw

theorem size_fields {v : Value Γ} {c : Composite Γ} (h : v.fields? = some c) : v.size = 1 + valuesSize c.vals := by
  rcases v with ⟨⟨⟨fs⟩ | ⟨vs⟩⟩ | ⟨⟨_, ⟨fs⟩ | ⟨vs⟩⟩⟩ | _ | _, x⟩ <;> cases h <;> simp only [Value.size, Composite.vals, fieldsSize_vals]

theorem step_length {reg : Reg Id} (hr : NamesApart reg) {cc : Bool} {v : Value Γ} {t : Id} {bs : List UInt8} (h : StepBy reg cc E v t bs) (hs : Sized v) (hK : 17 ≤ K) (h256 : 513 ≤ K ∨ ¬ Has256 v)
    (hE : ∀ w ∈ v.children, ∀ t bs, E w t bs → bs.length ≤ K * w.size) : bs.length ≤ K * v.size := by
  have leaf : ∀ (p : Primitive) (x : Γ) (m : Nat), m ≤ 17 → m ≤ K * (Value.mk (.primitive p) x).size := by
    intro p x m hm
    have h1 : 1 ≤ (Value.mk (.primitive p) x).size := deep_le_size .here
    have h2 : K * 1 ≤ K * (Value.mk (.primitive p) x).size := Nat.mul_le_mul_left _ h1
    omega
  have comp : ∀ c x t bs, v = .mk (.composite c) x → DirectBy reg E c t bs → bs.length ≤ K * v.size := by
    rintro c x t bs rfl hd
    have hf : (Value.mk (.composite c) x).fields? = some c := rfl
    have := directBy_length hr hd hK (by have := (hs.1 _ (.self _)).1 c hf; cases c <;> simpa [Composite.len, Composite.vals] using this) (by rw [fields_children hf] at hE; exact hE)
    rw [size_fields hf, Nat.mul_add, Nat.mul_one]
    omega
  cases h with
  | bool _ _ => exact leaf _ _ 1 (by omega)
  | char _ h => exact leaf _ _ _ (numAt_length h)
  | @string s x t u p _ _ h1 =>
    have h2 := (hs.1 _ (.self _)).2 s rfl
    have h3 := compact_few h1 (m := 4) (by omega) (by omega)
    have h4 := utf8_le s
    have h5 : 17 * s.length ≤ K * s.length := Nat.mul_le_mul_right _ hK
    simp only [List.length_append, Value.size, Nat.mul_add, Nat.mul_one]
    omega
  | u128 _ h => exact leaf _ _ _ (numAt_length h)
  | i128 _ h => exact leaf _ _ _ (numAt_length h)
  | u256 h =>
    rcases h256 with h256 | h256
    · have := bytes32By_length h; simp only [Value.size]; omega
    · exact absurd .u256 h256
  | i256 h =>
    rcases h256 with h256 | h256
    · have := bytes32By_length h; simp only [Value.size]; omega
    · exact absurd .i256 h256
  | @bits b x t u s o p q _ _ h1 h2 =>
    have h0 := hs.2 _ b (.self _) rfl
    have h3 := compact_few h1 (m := 4) (by omega) (by omega)
    have h4 := bits_length h2
    have h5 : 17 * b.length ≤ K * b.length := Nat.mul_le_mul_right _ hK
    simp only [List.length_append, Value.size, Nat.mul_add, Nat.mul_one]
    omega
  | @variant n c x t u before d after bs _ h1 _ _ h2 =>
    have hf : (Value.mk (.variant (.mk n c)) x).fields? = some c := rfl
    have := fieldsBy_length h2 (hr.2 _ _ h1 d (by simp)) (by rw [fields_children hf] at hE; exact hE)
    rw [size_fields hf, Nat.mul_add, Nat.mul_one, List.length_cons]
    omega
  | composite h => exact comp _ _ _ _ rfl h
  | inner _ _ h => exact comp _ _ _ _ rfl h
  | @alone c x t u w bs _ _ _ h1 h2 =>
    have hf : (Value.mk (.composite c) x).fields? = some c := rfl
    have := hE w (by rw [fields_children hf, h1]; simp) _ _ h2
    rw [size_fields hf, h1, Nat.mul_add, Nat.mul_one]
    simp only [valuesSize, Nat.add_zero]
    omega

theorem child_size {v w : Value Γ} (h : w ∈ v.children) : w.size < v.size := by
  rcases v with ⟨⟨⟨fs⟩ | ⟨vs⟩⟩ | ⟨⟨_, ⟨fs⟩ | ⟨vs⟩⟩⟩ | _ | _, x⟩
  · have := mem_fieldsSize h; simp only [Value.size]; omega
  · have := mem_valuesSize (vs := vs) h; simp only [Value.size]; omega
  · have := mem_fieldsSize h; simp only [Value.size]; omega
  · have := mem_valuesSize (vs := vs) h; simp only [Value.size]; omega
  · cases h
  · cases h

theorem encode_length {reg : Reg Id} (hr : NamesApart reg) (cc : Bool) (hK : 17 ≤ K) : ∀ (m : Nat) (v : Value Γ), v.size ≤ m → Sized v → (513 ≤ K ∨ ¬ Has256 v) →
    ∀ t bs, Okay (v.encode reg cc t) bs → bs.length ≤ K * v.size := by
  intro m
  induction m with
  | zero => intro v hv; have : 1 ≤ v.size := deep_le_size .here; omega
  | succ m ih =>
    intro v hv hs h256 t bs h
    refine step_length hr ((step_enc hs).1 h) hs hK h256 (fun w hw t bs hb => ?_)
    exact ih w (by have := child_size hw; omega) (sized_sub hs hw) (h256.imp_right (fun h h' => h (has256_sub hw h'))) t bs hb

end SV
