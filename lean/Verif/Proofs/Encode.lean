import Verif.Spec.Encode
import Verif.Proofs.Codec
/-
The encoder: what it appends, contexts, wrappers.
-/
namespace SV

variable {Id Γ Δ : Type}

/-! ### Appending only -/

/-- The result does not depend on what is in the buffer, which only grows. -/
def AppendOnly (a : EncM Id) : Prop := ∀ out, a out = ((a []).1, out ++ (a []).2)

theorem append_fail (k : EKind Id) : AppendOnly (.fail k) := fun out => by simp [EncM.fail]
theorem append_write (bs : List UInt8) : AppendOnly (.write bs : EncM Id) := fun out => by simp [EncM.write]
theorem append_done : AppendOnly (fun out => (.ok (), out) : EncM Id) := fun out => by simp
theorem append_error (e : EErr Id) : AppendOnly (fun out => (.error e, out) : EncM Id) := fun out => by simp

theorem append_seq {a b : EncM Id} (ha : AppendOnly a) (hb : AppendOnly b) : AppendOnly (.seq a b) := by
  intro out
  have h1 := ha out
  unfold EncM.seq
  rw [h1]
  rcases h : a [] with ⟨r, w⟩
  cases r with
  | error e => simp
  | ok x =>
    cases x
    simp only
    rw [hb (out ++ w), hb w]
    simp

theorem append_mapErr {f : EErr Id → EErr Id} {a : EncM Id} (ha : AppendOnly a) : AppendOnly (.mapErr f a) := by
  intro out
  have h1 := ha out
  unfold EncM.mapErr
  rw [h1]
  rcases h : a [] with ⟨r, w⟩
  cases r <;> simp

/-- All of the values append only. -/
def AppendOnlyAll (cs : List (Child Id)) : Prop := ∀ c ∈ cs, ∀ t, AppendOnly (c.enc t)

theorem append_items {cs : List (Child Id)} (h : AppendOnlyAll cs) (t : Id) (nm : Bool) (k : Nat) : AppendOnly (encItems t nm k cs) := by
  induction cs generalizing k with
  | nil => exact append_done
  | cons c cs ih => exact append_seq (append_mapErr (h c (by simp) t)) (ih (fun d hd => h d (by simp [hd])) _)

theorem append_byName {cs : List (Child Id)} (h : AppendOnlyAll cs) (fs : List (Field Id)) : AppendOnly (encByName cs fs) := by
  induction fs with
  | nil => exact append_done
  | cons f fs ih =>
    unfold encByName
    split
    · exact append_fail _
    · rename_i c hc
      exact append_seq (append_mapErr (h c (by simpa using List.mem_of_find?_eq_some hc) _)) ih

theorem append_byOrder {cs : List (Child Id)} (h : AppendOnlyAll cs) (k : Nat) (fs : List (Field Id)) : AppendOnly (encByOrder k cs fs) := by
  induction cs generalizing k fs with
  | nil => unfold encByOrder; exact append_done
  | cons c cs ih =>
    cases fs with
    | nil => unfold encByOrder; exact append_done
    | cons f fs => exact append_seq (append_mapErr (h c (by simp) _)) (ih (fun d hd => h d (by simp [hd])) _ _)

theorem append_fieldsTo {cs : List (Child Id)} (h : AppendOnlyAll cs) (fs : List (Field Id)) : AppendOnly (encFieldsTo cs fs) := by
  unfold encFieldsTo
  split
  · exact append_byName h fs
  · split
    · exact append_fail _
    · exact append_byOrder h 0 fs

theorem append_compositeAsType {cs : List (Child Id)} (h : AppendOnlyAll cs) (reg : Reg Id) (t : Id) : AppendOnly (encCompositeAsType reg cs t) := by
  unfold encCompositeAsType
  split
  · exact append_fail _
  · split
    · exact h _ (by simp) _
    · exact append_fieldsTo h _
  · split
    · exact h _ (by simp) _
    · exact append_fieldsTo h _
  · split
    · exact h _ (by simp) _
    · exact append_fail _

theorem append_doEncode {cs : List (Child Id)} (h : AppendOnlyAll cs) (reg : Reg Id) (t : Id) : AppendOnly (doEncodeComposite reg cs t) := by
  unfold doEncodeComposite
  split
  · exact append_compositeAsType h reg t
  · exact append_compositeAsType h reg t
  · exact append_seq (append_write _) (append_items h _ _ _)
  · split
    · exact append_fail _
    · exact append_items h _ _ _
  · split
    · exact append_error _
    · exact append_write _
  · split
    · exact h _ (by simp) _
    · exact append_fail _

theorem append_last (cs : List (Child Id)) (t : Id) (e : EErr Id) : AppendOnly (encLast cs t e) := by
  intro out
  unfold encLast
  split
  · split <;> simp
  · simp

/-- Whatever the values are like, a composite writes only when it succeeds. -/
theorem append_composite (reg : Reg Id) (cs : List (Child Id)) (t : Id) : AppendOnly (encComposite reg cs t) := by
  intro out
  unfold encComposite
  split
  · simp
  · split
    · split
      · simp
      · exact append_last _ _ _ out
    · exact append_last _ _ _ out

theorem append_variant {cs : List (Child Id)} (h : AppendOnlyAll cs) (reg : Reg Id) (n : Str) (t : Id) : AppendOnly (encVariant reg n cs t) := by
  unfold encVariant
  split
  · split
    · exact append_fail _
    · exact append_seq (append_write _) (append_fieldsTo h _)
  · exact append_fail _
  · exact append_fail _

theorem append_uintK (t : Id) (k : Nat) (n : Int) : AppendOnly (encUintK t k n) := by unfold encUintK; split <;> first | exact append_write _ | exact append_fail _
theorem append_intK (t : Id) (k : Nat) (n : Int) : AppendOnly (encIntK t k n) := by unfold encIntK; split <;> first | exact append_write _ | exact append_fail _
theorem append_compactK (t : Id) (k : Nat) (n : Int) : AppendOnly (encCompactK t k n) := by unfold encCompactK; split <;> first | exact append_write _ | exact append_fail _

theorem append_num (reg : Reg Id) (cc : Bool) (n : Int) (t : Id) : AppendOnly (encNum reg cc n t) := by
  unfold encNum
  simp only
  split <;> first | exact append_uintK _ _ _ | exact append_intK _ _ _ | exact append_fail _ | skip
  · split
    · exact append_uintK _ _ _
    · exact append_fail _
  · split <;> first | exact append_compactK _ _ _ | exact append_fail _

theorem append_bytes (reg : Reg Id) (bs : List UInt8) (n : Nat) (t : Id) : AppendOnly (encBytesN reg bs n t) := by
  have hb : AppendOnlyAll (byteChildren reg bs) := by
    intro c hc t
    obtain ⟨b, -, rfl⟩ := List.mem_map.1 hc
    exact append_num _ _ _ _
  induction n generalizing t with
  | zero => exact append_fail _
  | succ n ih =>
    unfold encBytesN
    split
    · split
      · exact append_fail _
      · exact append_items hb _ _ _
    · exact append_seq (append_write _) (append_items hb _ _ _)
    · exact ih _
    · exact ih _
    · exact append_fail _
    · exact append_fail _

theorem append_bits (reg : Reg Id) (b : List Bool) (t : Id) : AppendOnly (encBits reg b t) := by
  unfold encBits
  simp only
  split <;> first | exact append_write _ | exact append_fail _

theorem append_bool (reg : Reg Id) (b : Bool) (t : Id) : AppendOnly (encBool reg b t) := by
  unfold encBool
  simp only
  split <;> first | exact append_write _ | exact append_fail _

theorem append_str (reg : Reg Id) (b : Str) (t : Id) : AppendOnly (encStr reg b t) := by
  unfold encStr
  simp only
  split <;> first | exact append_write _ | exact append_fail _

theorem append_primitive (reg : Reg Id) (cc : Bool) (p : Primitive) (t : Id) : AppendOnly (encPrimitive reg cc p t) := by
  cases p
  · exact append_bool _ _ _
  · exact append_num _ _ _ _
  · exact append_str _ _ _
  · exact append_num _ _ _ _
  · exact append_num _ _ _ _
  · exact append_bytes _ _ _ _
  · exact append_bytes _ _ _ _

mutual
theorem append_value (reg : Reg Id) (cc : Bool) : ∀ (v : Value Γ) (t : Id), AppendOnly (v.encode reg cc t)
  | .mk d _, t => by rw [Value.encode]; exact append_def reg cc d t
theorem append_def (reg : Reg Id) (cc : Bool) : ∀ (d : ValueDef Γ) (t : Id), AppendOnly (d.encode reg cc t)
  | .composite c, t => by rw [ValueDef.encode]; exact append_composite _ _ _
  | .variant (.mk n c), t => by rw [ValueDef.encode]; exact append_variant (append_children reg cc c) _ _ _
  | .primitive p, t => by rw [ValueDef.encode]; exact append_primitive _ _ _ _
  | .bitSequence b, t => by rw [ValueDef.encode]; exact append_bits _ _ _
theorem append_children (reg : Reg Id) (cc : Bool) : ∀ (c : Composite Γ), AppendOnlyAll (c.encChildren reg cc)
  | .named fs => by rw [Composite.encChildren]; exact append_named reg cc fs
  | .unnamed vs => by rw [Composite.encChildren]; exact append_unnamed reg cc vs
theorem append_named (reg : Reg Id) (cc : Bool) : ∀ (fs : List (Str × Value Γ)), AppendOnlyAll (encNamed reg cc fs)
  | [] => by rw [encNamed]; intro c hc; cases hc
  | (k, v) :: r => by
    rw [encNamed]
    intro c hc t
    rcases List.mem_cons.1 hc with rfl | hc
    · exact append_value reg cc v t
    · exact append_named reg cc r c hc t
theorem append_unnamed (reg : Reg Id) (cc : Bool) : ∀ (fs : List (Value Γ)), AppendOnlyAll (encUnnamed reg cc fs)
  | [] => by rw [encUnnamed]; intro c hc; cases hc
  | v :: r => by
    rw [encUnnamed]
    intro c hc t
    rcases List.mem_cons.1 hc with rfl | hc
    · exact append_value reg cc v t
    · exact append_unnamed reg cc r c hc t
end

/-! ### Success and failure -/

theorem okay_iff {a : EncM Id} (h : AppendOnly a) {bs : List UInt8} : Okay a bs ↔ a [] = (.ok (), bs) := by
  constructor
  · intro ho; simpa using ho []
  · intro ho out; rw [h out, ho]

theorem okay_or_fails {a : EncM Id} (h : AppendOnly a) : (∃ bs, Okay a bs) ∨ Fails a := by
  rcases ha : a [] with ⟨r, w⟩
  cases r with
  | ok x => cases x; exact .inl ⟨w, (okay_iff h).2 ha⟩
  | error e => exact .inr (fun out => ⟨e, out ++ w, by rw [h out, ha]⟩)

theorem okay_not_fails {a : EncM Id} {bs} (h : Okay a bs) : ¬ Fails a := by
  intro hf
  obtain ⟨e, o, he⟩ := hf []
  rw [h []] at he
  cases he

theorem okay_unique {a : EncM Id} {x y : List UInt8} (hx : Okay a x) (hy : Okay a y) : x = y := by
  have := hx []
  rw [hy []] at this
  simpa using this.symm

theorem okay_write (bs : List UInt8) : Okay (.write bs : EncM Id) bs := fun _ => rfl
theorem okay_done : Okay (fun out => (.ok (), out) : EncM Id) [] := fun _ => by simp
theorem okay_done_iff {bs : List UInt8} : Okay (fun out => (.ok (), out) : EncM Id) bs ↔ bs = [] :=
  ⟨fun h => okay_unique h okay_done, fun h => h ▸ okay_done⟩
theorem okay_write_iff {bs x : List UInt8} : Okay (.write bs : EncM Id) x ↔ x = bs :=
  ⟨fun h => okay_unique h (okay_write bs), fun h => h ▸ okay_write x⟩
theorem fails_fail (k : EKind Id) : Fails (.fail k) := fun out => ⟨_, _, rfl⟩
theorem fails_error (e : EErr Id) : Fails (fun out => (.error e, out) : EncM Id) := fun _ => ⟨_, _, rfl⟩

theorem okay_seq {a b : EncM Id} {x y : List UInt8} (ha : Okay a x) (hb : Okay b y) : Okay (.seq a b) (x ++ y) := by
  intro out
  unfold EncM.seq
  rw [ha out]
  simp only
  rw [hb, List.append_assoc]

theorem okay_mapErr {f : EErr Id → EErr Id} {a : EncM Id} {x : List UInt8} (ha : Okay a x) : Okay (.mapErr f a) x := by
  intro out
  unfold EncM.mapErr
  rw [ha out]

theorem fails_mapErr {f : EErr Id → EErr Id} {a : EncM Id} (ha : Fails a) : Fails (.mapErr f a) := by
  intro out
  obtain ⟨e, o, h⟩ := ha out
  exact ⟨f e, o, by unfold EncM.mapErr; rw [h]⟩

theorem fails_seq_left {a b : EncM Id} (ha : Fails a) : Fails (.seq a b) := by
  intro out
  obtain ⟨e, o, h⟩ := ha out
  exact ⟨e, o, by unfold EncM.seq; rw [h]⟩

theorem fails_seq_right {a b : EncM Id} {x} (ha : Okay a x) (hb : Fails b) : Fails (.seq a b) := by
  intro out
  obtain ⟨e, o, h⟩ := hb (out ++ x)
  exact ⟨e, o, by unfold EncM.seq; rw [ha out]; exact h⟩

theorem okay_mapErr_iff {f : EErr Id → EErr Id} {a : EncM Id} (ha : AppendOnly a) {x : List UInt8} : Okay (.mapErr f a) x ↔ Okay a x := by
  constructor
  · intro h
    rcases okay_or_fails ha with ⟨bs, h1⟩ | h1
    · rwa [okay_unique h (okay_mapErr h1)]
    · exact (okay_not_fails h (fails_mapErr h1)).elim
  · exact okay_mapErr

theorem okay_seq_iff {a b : EncM Id} (ha : AppendOnly a) (hb : AppendOnly b) {z : List UInt8} :
    Okay (.seq a b) z ↔ ∃ x y, Okay a x ∧ Okay b y ∧ z = x ++ y := by
  constructor
  · intro h
    rcases okay_or_fails ha with ⟨x, h1⟩ | h1
    · rcases okay_or_fails hb with ⟨y, h2⟩ | h2
      · exact ⟨x, y, h1, h2, okay_unique h (okay_seq h1 h2)⟩
      · exact (okay_not_fails h (fails_seq_right h1 h2)).elim
    · exact (okay_not_fails h (fails_seq_left h1)).elim
  · rintro ⟨x, y, h1, h2, rfl⟩; exact okay_seq h1 h2

/-! ### Contexts -/

theorem bitOf_mapContext {S : Type} (f : S → Γ → Δ × S) (v : Value Γ) (s : S) : bitOf (v.mapContextS f s) = bitOf v := by
  obtain ⟨d, c⟩ := v
  cases d <;> rfl

mutual
theorem encode_mapContext {S : Type} (reg : Reg Id) (cc : Bool) (f : S → Γ → Δ × S) : ∀ (v : Value Γ) (s : S),
    (v.mapContextS f s).encode reg cc = v.encode reg cc
  | .mk d c, s => by rw [Value.mapContextS, Value.encode, Value.encode, encode_mapContext_def]
theorem encode_mapContext_def {S : Type} (reg : Reg Id) (cc : Bool) (f : S → Γ → Δ × S) : ∀ (d : ValueDef Γ) (s : S),
    (d.mapContextS f s).encode reg cc = d.encode reg cc
  | .composite c, s => by rw [ValueDef.mapContextS, ValueDef.encode, ValueDef.encode, encode_mapContext_children]
  | .variant (.mk n c), s => by rw [ValueDef.mapContextS, Variant.mapContextS, ValueDef.encode, ValueDef.encode, encode_mapContext_children]
  | .primitive p, s => by rw [ValueDef.mapContextS, ValueDef.encode, ValueDef.encode]
  | .bitSequence b, s => by rw [ValueDef.mapContextS, ValueDef.encode, ValueDef.encode]
theorem encode_mapContext_children {S : Type} (reg : Reg Id) (cc : Bool) (f : S → Γ → Δ × S) : ∀ (c : Composite Γ) (s : S),
    (c.mapContextS f s).encChildren reg cc = c.encChildren reg cc
  | .named fs, s => by rw [Composite.mapContextS, Composite.encChildren, Composite.encChildren, encode_mapContext_named]
  | .unnamed fs, s => by rw [Composite.mapContextS, Composite.encChildren, Composite.encChildren, encode_mapContext_unnamed]
theorem encode_mapContext_named {S : Type} (reg : Reg Id) (cc : Bool) (f : S → Γ → Δ × S) : ∀ (fs : List (Str × Value Γ)) (s : S),
    encNamed reg cc (mapFieldsS f fs s) = encNamed reg cc fs
  | [], s => by rw [mapFieldsS, encNamed, encNamed]
  | (k, v) :: r, s => by rw [mapFieldsS, encNamed, encNamed, encode_mapContext, bitOf_mapContext, encode_mapContext_named]
theorem encode_mapContext_unnamed {S : Type} (reg : Reg Id) (cc : Bool) (f : S → Γ → Δ × S) : ∀ (fs : List (Value Γ)) (s : S),
    encUnnamed reg cc (mapValsS f fs s) = encUnnamed reg cc fs
  | [], s => by rw [mapValsS, encUnnamed, encUnnamed]
  | v :: r, s => by rw [mapValsS, encUnnamed, encUnnamed, encode_mapContext, bitOf_mapContext, encode_mapContext_unnamed]
end

/-! ### Wrappers -/

theorem findSingleN_stable (reg : Reg Id) : ∀ n m t b b', reg.rank t < n → reg.rank t < m →
    (findSingleN reg n t b).1 = (findSingleN reg m t b').1 := by
  intro n
  induction n with
  | zero => intro m t b b' h; omega
  | succ n ih =>
    intro m t b b' hn hm
    cases m with
    | zero => omega
    | succ m =>
      rw [findSingleN, findSingleN]
      split
      · rename_i u h
        have := reg.rank_lt t _ u h (by simp [TypeDef.inline])
        exact ih m u true true (by omega) (by omega)
      · rename_i f h
        have := reg.rank_lt t _ f.id h (by simp [TypeDef.inline])
        exact ih m f.id true true (by omega) (by omega)
      · rename_i u h
        have := reg.rank_lt t _ u h (by simp [TypeDef.inline])
        exact ih m u true true (by omega) (by omega)
      · rfl

theorem findSingleN_snd (reg : Reg Id) : ∀ n t, (findSingleN reg n t true).2 = true := by
  intro n
  induction n with
  | zero => intro t; rfl
  | succ n ih => intro t; rw [findSingleN]; split <;> first | exact ih _ | rfl

theorem findSingle_step {reg : Reg Id} {t u : Id} (h : SingleEntry reg t u) : findSingle reg t = ((findSingle reg u).1, true) := by
  have key : findSingle reg t = findSingleN reg (reg.rank t) u true := by
    unfold findSingle
    rw [findSingleN]
    cases h with
    | composite h => rw [h]
    | tuple h => rw [h]
    | array h => rw [h]; rfl
  have hr : reg.rank u < reg.rank t := by
    cases h with
    | composite h => exact reg.rank_lt t _ _ h (by simp [TypeDef.inline])
    | tuple h => exact reg.rank_lt t _ _ h (by simp [TypeDef.inline])
    | array h => exact reg.rank_lt t _ _ h (by simp [TypeDef.inline])
  rw [key]
  refine Prod.ext ?_ (findSingleN_snd reg _ _)
  exact findSingleN_stable reg _ _ _ _ _ hr (by omega)

theorem findSingle_done {reg : Reg Id} {t : Id} (h : ∀ u, ¬ SingleEntry reg t u) : findSingle reg t = (t, false) := by
  unfold findSingle
  rw [findSingleN]
  split
  · rename_i u h1; exact (h _ (.tuple h1)).elim
  · rename_i u h1; exact (h _ (.composite h1)).elim
  · rename_i u h1; exact (h _ (.array h1)).elim
  · rfl

theorem findSingle_sameRepr {reg : Reg Id} {t u : Id} (h : SameRepr reg t u) : (findSingle reg t).1 = (findSingle reg u).1 := by
  induction h with
  | refl => rfl
  | step h _ ih => rw [findSingle_step h]; exact ih

theorem singleEntry_rank {reg : Reg Id} {t u : Id} (h : SingleEntry reg t u) : reg.rank u < reg.rank t := by
  cases h with
  | composite h => exact reg.rank_lt t _ _ h (by simp [TypeDef.inline])
  | tuple h => exact reg.rank_lt t _ _ h (by simp [TypeDef.inline])
  | array h => exact reg.rank_lt t _ _ h (by simp [TypeDef.inline])

theorem singleEntry_fun {reg : Reg Id} {t u w : Id} (h : SingleEntry reg t u) (h' : SingleEntry reg t w) : u = w := by
  cases h with
  | composite h => cases h' with
    | composite h' => rw [h] at h'; cases h'; rfl
    | tuple h' => rw [h] at h'; cases h'
    | array h' => rw [h] at h'; cases h'
  | tuple h => cases h' with
    | composite h' => rw [h] at h'; cases h'
    | tuple h' => rw [h] at h'; cases h'; rfl
    | array h' => rw [h] at h'; cases h'
  | array h => cases h' with
    | composite h' => rw [h] at h'; cases h'
    | tuple h' => rw [h] at h'; cases h'
    | array h' => rw [h] at h'; cases h'; rfl

theorem findSingle_innermost (reg : Reg Id) (t : Id) : Innermost reg t (findSingle reg t).1 := by
  generalize hn : reg.rank t = n
  induction n using Nat.strongRecOn generalizing t with
  | ind n ih =>
    by_cases h : ∃ u, SingleEntry reg t u
    · obtain ⟨u, h⟩ := h
      rw [findSingle_step h]
      have hr := singleEntry_rank h
      obtain ⟨h1, h2⟩ := ih _ (by omega) u rfl
      exact ⟨.step h h1, h2⟩
    · have h := not_exists.1 h
      rw [findSingle_done h]
      exact ⟨.refl t, h⟩

theorem findSingle_iff {reg : Reg Id} {t u : Id} : (findSingle reg t).1 = u ↔ Innermost reg t u := by
  constructor
  · rintro rfl; exact findSingle_innermost reg t
  · rintro ⟨h1, h2⟩
    rw [findSingle_sameRepr h1, findSingle_done h2]

theorem wraps_rank {reg : Reg Id} {t u : Id} (h : Wraps reg t u) : reg.rank u < reg.rank t := by
  cases h with
  | composite h => exact reg.rank_lt t _ _ h (by simp [TypeDef.inline])
  | tuple h => exact reg.rank_lt t _ _ h (by simp [TypeDef.inline])

theorem wraps_single {reg : Reg Id} {t u : Id} (h : Wraps reg t u) : SingleEntry reg t u := by
  cases h with
  | composite h => exact .composite (f := ⟨none, u⟩) h
  | tuple h => exact .tuple h

theorem wraps_fun {reg : Reg Id} {t u w : Id} (h : Wraps reg t u) (h' : Wraps reg t w) : u = w :=
  singleEntry_fun (wraps_single h) (wraps_single h')

theorem skipN_stable (reg : Reg Id) : ∀ n m t, reg.rank t < n → reg.rank t < m → skipN reg n t = skipN reg m t := by
  intro n
  induction n with
  | zero => intro m t h; omega
  | succ n ih =>
    intro m t hn hm
    cases m with
    | zero => omega
    | succ m =>
      rw [skipN, skipN]
      split
      · rename_i u h
        have := reg.rank_lt t _ u h (by simp [TypeDef.inline])
        exact ih m u (by omega) (by omega)
      · rename_i u h
        have := reg.rank_lt t _ u h (by simp [TypeDef.inline])
        exact ih m u (by omega) (by omega)
      · rfl

theorem skip_step {reg : Reg Id} {t u : Id} (h : Wraps reg t u) : skip reg t = skip reg u := by
  have hr := wraps_rank h
  unfold skip
  rw [skipN]
  cases h with
  | composite h => rw [h]; exact skipN_stable reg _ _ _ hr (by omega)
  | tuple h => rw [h]; exact skipN_stable reg _ _ _ hr (by omega)

theorem skip_done {reg : Reg Id} {t : Id} (h : ∀ u, ¬ Wraps reg t u) : skip reg t = t := by
  unfold skip
  rw [skipN]
  split
  · rename_i u h1; exact (h _ (.composite h1)).elim
  · rename_i u h1; exact (h _ (.tuple h1)).elim
  · rfl

theorem skip_unwrapped (reg : Reg Id) (t : Id) : Unwrapped reg t (skip reg t) := by
  generalize hn : reg.rank t = n
  induction n using Nat.strongRecOn generalizing t with
  | ind n ih =>
    by_cases h : ∃ u, Wraps reg t u
    · obtain ⟨u, h⟩ := h
      rw [skip_step h]
      have hr := wraps_rank h
      exact .step h (ih _ (by omega) u rfl)
    · have h := not_exists.1 h
      rw [skip_done h]
      exact .done h

theorem unwrapped_skip {reg : Reg Id} {t u : Id} (h : Unwrapped reg t u) : skip reg t = u := by
  induction h with
  | done h => exact skip_done h
  | step h _ ih => rw [skip_step h, ih]

theorem skip_not_wraps (reg : Reg Id) (t u : Id) : ¬ Wraps reg (skip reg t) u := by
  have := skip_unwrapped reg t
  generalize skip reg t = w at this
  induction this with
  | done h => exact h u
  | step _ _ ih => exact ih

end SV
