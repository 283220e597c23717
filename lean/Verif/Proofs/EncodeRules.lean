import Verif.Proofs.EncodeTyped
/-
Rules of the encoder for composites: wrappers, names, lengths, bits.
-/
namespace SV

variable {Id Γ : Type}

/-! ### Values in order -/

theorem encAll_length {reg : Reg Id} {cc : Bool} {ts : List Id} {vs : List (Value Γ)} {bs : List UInt8} (h : EncAll reg cc ts vs bs) : vs.length = ts.length := by
  induction h with
  | nil => rfl
  | cons _ _ ih => simp [ih]

/-- The children of a composite as the encoder sees them. -/
theorem children_cases (reg : Reg Id) (cc : Bool) (c : Composite Γ) :
    List.Forall₂ (fun (k : Child Id) v => k.enc = v.encode reg cc ∧ k.bit = bitOf v) (c.encChildren reg cc) c.vals := by
  cases c with
  | named fs =>
    rw [Composite.encChildren, encNamed_eq, Composite.vals]
    induction fs with
    | nil => exact .nil
    | cons f fs ih => exact .cons ⟨rfl, rfl⟩ ih
  | unnamed vs =>
    rw [Composite.encChildren, encUnnamed_eq, Composite.vals]
    induction vs with
    | nil => exact .nil
    | cons v vs ih => exact .cons ⟨rfl, rfl⟩ ih

/-- A child stands for a value. -/
abbrev Stands (reg : Reg Id) (cc : Bool) (k : Child Id) (v : Value Γ) : Prop := k.enc = v.encode reg cc ∧ k.bit = bitOf v

theorem forall₂_length {A B : Type} {R : A → B → Prop} {l : List A} {m : List B} (h : List.Forall₂ R l m) : l.length = m.length := by
  induction h with
  | nil => rfl
  | cons _ _ ih => simp [ih]

theorem append_stands {reg : Reg Id} {cc : Bool} {cs : List (Child Id)} {vs : List (Value Γ)} (h : List.Forall₂ (Stands reg cc) cs vs) : AppendOnlyAll cs := by
  induction h with
  | nil => intro c hc; cases hc
  | cons h _ ih =>
    intro c hc t
    rcases List.mem_cons.1 hc with rfl | hc
    · rw [h.1]; exact append_value reg cc _ t
    · exact ih c hc t

theorem okay_items_iff {reg : Reg Id} {cc : Bool} {cs : List (Child Id)} {vs : List (Value Γ)} (h : List.Forall₂ (Stands reg cc) cs vs) {u : Id} {nm : Bool}
    {k : Nat} {bs : List UInt8} : Okay (encItems u nm k cs) bs ↔ EncAll reg cc (List.replicate cs.length u) vs bs := by
  induction h generalizing k bs with
  | nil => unfold encItems; rw [okay_done_iff]; constructor
           · rintro rfl; exact .nil
           · intro h; cases h; rfl
  | @cons c v cs vs h h2 ih =>
    have ha := append_stands (List.Forall₂.cons h h2)
    unfold encItems
    rw [okay_seq_iff (append_mapErr (ha c (by simp) u)) (append_items (fun d hd => ha d (by simp [hd])) _ _ _), List.length_cons, List.replicate_succ]
    constructor
    · rintro ⟨x, y, h3, h4, rfl⟩
      rw [okay_mapErr_iff (ha c (by simp) u), h.1] at h3
      exact .cons h3 (ih.1 h4)
    · intro h5
      cases h5 with
      | cons h3 h4 => exact ⟨_, _, okay_mapErr (by rw [h.1]; exact h3), ih.2 h4, rfl⟩

theorem okay_byOrder_iff {reg : Reg Id} {cc : Bool} {cs : List (Child Id)} {vs : List (Value Γ)} (h : List.Forall₂ (Stands reg cc) cs vs) {fs : List (Field Id)}
    (hl : fs.length = cs.length) {k : Nat} {bs : List UInt8} : Okay (encByOrder k cs fs) bs ↔ EncAll reg cc (fs.map (fun f => f.id)) vs bs := by
  induction h generalizing k bs fs with
  | nil =>
    obtain rfl := List.length_eq_zero_iff.1 hl
    unfold encByOrder; rw [okay_done_iff]; constructor
    · rintro rfl; exact .nil
    · intro h; cases h; rfl
  | @cons c v cs vs h h2 ih =>
    have ha := append_stands (List.Forall₂.cons h h2)
    cases fs with
    | nil => simp at hl
    | cons f fs =>
      unfold encByOrder
      rw [okay_seq_iff (append_mapErr (ha c (by simp) f.id)) (append_byOrder (fun d hd => ha d (by simp [hd])) _ _), List.map_cons]
      constructor
      · rintro ⟨x, y, h3, h4, rfl⟩
        rw [okay_mapErr_iff (ha c (by simp) f.id), h.1] at h3
        exact .cons h3 ((ih (by simpa using hl)).1 h4)
      · intro h5
        cases h5 with
        | cons h3 h4 => exact ⟨_, _, okay_mapErr (by rw [h.1]; exact h3), (ih (by simpa using hl)).2 h4, rfl⟩

/-- Fields are matched in order when there are no names among the values, or among the fields. -/
theorem okay_fieldsTo_order {reg : Reg Id} {cc : Bool} {cs : List (Child Id)} {vs : List (Value Γ)} (h : List.Forall₂ (Stands reg cc) cs vs) {fs : List (Field Id)}
    (hn : (∀ c ∈ cs, c.name = none) ∨ ∀ f ∈ fs, f.name = none) {bs : List UInt8} :
    Okay (encFieldsTo cs fs) bs ↔ EncAll reg cc (fs.map (fun f => f.id)) vs bs := by
  unfold encFieldsTo
  rw [if_neg]
  · split
    · rename_i hl
      constructor
      · intro ho; exact (okay_not_fails ho (fails_fail _)).elim
      · intro he
        have := encAll_length he
        rw [List.length_map, ← forall₂_length h] at this
        exact (hl this.symm).elim
    · rename_i hl
      exact okay_byOrder_iff h (Decidable.not_not.1 hl)
  · rcases hn with hn | hn
    · have : cs.any (fun c => c.name.isSome) = false := by rw [List.any_eq_false]; intro c hc; simp [hn c hc]
      simp [this]
    · have : fs.any (fun c => c.name.isSome) = false := by rw [List.any_eq_false]; intro c hc; simp [hn c hc]
      simp [this]

theorem unnamed_none (reg : Reg Id) (cc : Bool) (vs : List (Value Γ)) : ∀ c ∈ (Composite.unnamed vs).encChildren reg cc, c.name = none := by
  rw [Composite.encChildren, encUnnamed_eq]
  intro c hc
  obtain ⟨v, -, rfl⟩ := List.mem_map.1 hc
  rfl

/-! ### Names -/

theorem find_last {reg : Reg Id} {cc : Bool} {l : List (Str × Value Γ)} {n : Str} {c : Child Id} :
    (l.map (childNamed reg cc)).reverse.find? (fun c => c.name.getD [] == n) = some c ↔ ∃ v, LastNamed l n v ∧ c = childNamed reg cc (n, v) := by
  rw [List.find?_eq_some_iff_append]
  constructor
  · rintro ⟨hp, as, bs, heq, ha⟩
    have heq' : l.map (childNamed reg cc) = bs.reverse ++ c :: as.reverse := by
      have := congrArg List.reverse heq
      simpa using this
    obtain ⟨l1, l2, rfl, h1, h2⟩ := List.map_eq_append_iff.1 heq'
    obtain ⟨p, l3, rfl, h3, h4⟩ := List.map_eq_cons_iff.1 h2
    obtain ⟨m, v⟩ := p
    subst h3
    have hm : m = n := by simpa [childNamed] using hp
    subst hm
    refine ⟨v, ⟨l1, l3, rfl, ?_⟩, rfl⟩
    intro w hw
    have hmem : childNamed reg cc (m, w) ∈ as := by
      have : childNamed reg cc (m, w) ∈ l3.map (childNamed reg cc) := List.mem_map_of_mem hw
      rw [h4] at this
      simpa using this
    have := ha _ hmem
    simp [childNamed] at this
  · rintro ⟨v, ⟨l1, l3, rfl, h⟩, rfl⟩
    refine ⟨by simp [childNamed], (l3.map (childNamed reg cc)).reverse, (l1.map (childNamed reg cc)).reverse, by simp, ?_⟩
    intro a ha
    obtain ⟨⟨m, w⟩, hm, rfl⟩ := List.mem_map.1 (List.mem_reverse.1 ha)
    simp only [childNamed, Option.getD_some, Bool.not_eq_true', beq_eq_false_iff_ne, ne_eq]
    rintro rfl
    exact h w hm

theorem okay_byName_iff {reg : Reg Id} {cc : Bool} {l : List (Str × Value Γ)} {fs : List (Str × Id)} {bs : List UInt8} :
    Okay (encByName (l.map (childNamed reg cc)) (fs.map (fun p => ⟨some p.1, p.2⟩))) bs ↔ EncByName reg cc l fs bs := by
  have ha := append_fields reg cc l
  induction fs generalizing bs with
  | nil =>
    rw [List.map_nil, encByName, okay_done_iff]
    constructor
    · rintro rfl; exact .nil
    · intro h; cases h; rfl
  | cons f fs ih =>
    obtain ⟨n, t⟩ := f
    rw [List.map_cons, encByName]
    simp only [Option.getD_some]
    split
    · rename_i hf
      constructor
      · intro ho; exact (okay_not_fails ho (fails_fail _)).elim
      · intro h
        cases h with
        | cons h1 _ _ => rw [find_last.2 ⟨_, h1, rfl⟩] at hf; cases hf
    · rename_i c hf
      obtain ⟨v, hv, rfl⟩ := find_last.1 hf
      rw [show (childNamed reg cc (n, v)).enc t = v.encode reg cc t from rfl, okay_seq_iff (append_mapErr (append_value reg cc v t)) (append_byName ha _)]
      constructor
      · rintro ⟨x, y, h3, h4, rfl⟩
        rw [okay_mapErr_iff (append_value reg cc v t)] at h3
        exact .cons hv h3 (ih.1 h4)
      · intro h
        cases h with
        | cons h1 h2 h3 =>
          have := hf.symm.trans (find_last.2 ⟨_, h1, rfl⟩)
          rw [Option.some.injEq] at this
          have he2 : (childNamed reg cc (n, v)).enc = (childNamed reg cc (n, _)).enc := congrArg Child.enc this
          refine ⟨_, _, okay_mapErr (f := _) (a := v.encode reg cc t) ?_, ih.2 h3, rfl⟩
          have he3 : v.encode reg cc = _ := he2
          rw [he3]
          exact h2

theorem okay_fieldsTo_named {reg : Reg Id} {cc : Bool} {l : List (Str × Value Γ)} {fs : List (Str × Id)} (hf : fs ≠ []) {bs : List UInt8} :
    Okay (encFieldsTo (l.map (childNamed reg cc)) (fs.map (fun p => ⟨some p.1, p.2⟩))) bs ↔ EncByName reg cc l fs bs := by
  unfold encFieldsTo
  cases fs with
  | nil => exact (hf rfl).elim
  | cons f fs =>
    cases l with
    | nil =>
      simp only [List.map_nil, List.any_nil, Bool.and_false, Bool.false_eq_true, if_false]
      rw [if_pos (by simp)]
      constructor
      · intro ho; exact (okay_not_fails ho (fails_fail _)).elim
      · intro h
        cases h with
        | cons h1 _ _ => obtain ⟨a, b, h, -⟩ := h1; simp at h
    | cons p l =>
      rw [if_pos (by simp [childNamed])]
      exact okay_byName_iff

/-! ### Composites at types that are no wrappers -/

theorem okay_composite_done {reg : Reg Id} {cs : List (Child Id)} (hg : AppendOnlyAll cs) {t : Id} (hs : ∀ u, ¬ SingleEntry reg t u) {r : List UInt8} :
    Okay (encComposite reg cs t) r ↔ Okay (doEncodeComposite reg cs t) r ∨ (Fails (doEncodeComposite reg cs t) ∧ ∃ c, cs = [c] ∧ Okay (c.enc t) r) := by
  rw [okay_composite_iff hg, findSingle_done hs]
  constructor
  · rintro (h | ⟨h1, h | ⟨-, h⟩⟩)
    · exact .inl h
    · exact .inl h
    · exact .inr ⟨h1, h⟩
  · rintro (h | ⟨h1, h⟩)
    · exact .inl h
    · exact .inr ⟨h1, .inr ⟨h1, h⟩⟩

theorem entries_not_single {reg : Reg Id} {t : Id} {ts : List Id} (h : Entries reg t ts) (u : Id) : ¬ SingleEntry reg t u := by
  intro hs
  cases h with
  | array h hn => cases hs with
    | composite h' => rw [h] at h'; cases h'
    | tuple h' => rw [h] at h'; cases h'
    | array h' => rw [h] at h'; cases h'; exact hn rfl
  | tuple h hn => cases hs with
    | composite h' => rw [h] at h'; cases h'
    | tuple h' => rw [h] at h'; cases h'; exact hn rfl
    | array h' => rw [h] at h'; cases h'
  | composite h hn => cases hs with
    | composite h' => rw [h] at h'; cases h'; exact hn rfl
    | tuple h' => rw [h] at h'; cases h'
    | array h' => rw [h] at h'; cases h'

theorem okay_asType {reg : Reg Id} {cs : List (Child Id)} {t : Id} {fs : List (Field Id)} (hl : cs.length ≠ 1) (hw : ∀ u, ¬ Wraps reg t u)
    (h : reg.resolve t = some (.composite fs)) : encCompositeAsType reg cs t = encFieldsTo cs fs := by
  unfold encCompositeAsType
  rw [skip_done hw, h]
  simp only
  split
  · simp at hl
  · rfl

theorem okay_asType_tuple {reg : Reg Id} {cs : List (Child Id)} {t : Id} {ts : List Id} (hl : cs.length ≠ 1) (hw : ∀ u, ¬ Wraps reg t u)
    (h : reg.resolve t = some (.tuple ts)) : encCompositeAsType reg cs t = encFieldsTo cs (ts.map (fun t => ⟨none, t⟩)) := by
  unfold encCompositeAsType
  rw [skip_done hw, h]
  simp only
  split
  · simp at hl
  · rfl

theorem okay_entries {reg : Reg Id} {cc : Bool} {cs : List (Child Id)} {vs : List (Value Γ)} (h : List.Forall₂ (Stands reg cc) cs vs) (hn : ∀ c ∈ cs, c.name = none)
    (hl : cs.length ≠ 1) {t : Id} {ts : List Id} (ht : Entries reg t ts) {bs : List UInt8} :
    Okay (doEncodeComposite reg cs t) bs ↔ EncAll reg cc ts vs bs := by
  have hw := not_wraps_of (entries_not_single ht)
  cases ht with
  | array ht hn =>
    unfold doEncodeComposite
    rw [ht]; simp only
    split
    · rename_i hlen
      constructor
      · intro ho; exact (okay_not_fails ho (fails_fail _)).elim
      · intro he
        have := encAll_length he
        rw [List.length_replicate, ← forall₂_length h] at this
        exact (hlen this).elim
    · rename_i hlen
      rw [okay_items_iff h, Decidable.not_not.1 hlen]
  | tuple ht hn' =>
    unfold doEncodeComposite
    rw [ht]; simp only
    rw [okay_asType_tuple hl hw ht, okay_fieldsTo_order h (.inl hn), List.map_map]
    simp [Function.comp_def]
  | composite ht hn' =>
    unfold doEncodeComposite
    rw [ht]; simp only
    rw [okay_asType hl hw ht, okay_fieldsTo_order h (.inl hn)]

theorem okay_single_entries {reg : Reg Id} {c : Child Id} (hg : AppendOnlyAll [c]) (hn : c.name = none) {t : Id} {ts : List Id} (ht : Entries reg t ts)
    {bs : List UInt8} : Okay (encComposite reg [c] t) bs ↔ Okay (c.enc t) bs := by
  have hw := not_wraps_of (entries_not_single ht)
  rw [okay_composite_done hg (entries_not_single ht)]
  have key : Okay (doEncodeComposite reg [c] t) bs → Okay (c.enc t) bs := by
    intro ho
    unfold doEncodeComposite at ho
    cases ht with
    | array ht hn =>
      rw [ht] at ho
      simp only at ho
      rw [if_pos (by simpa using fun h => hn h.symm)] at ho
      exact (okay_not_fails ho (fails_fail _)).elim
    | tuple ht hn' =>
      rw [ht] at ho
      simp only at ho
      rwa [do_asType_one hn (d := .tuple _) (by rw [skip_done hw]; exact ht), skip_done hw] at ho
    | composite ht hn' =>
      rw [ht] at ho
      simp only at ho
      rwa [do_asType_one hn (d := .composite _) (by rw [skip_done hw]; exact ht), skip_done hw] at ho
  constructor
  · rintro (h | ⟨-, c', hc, h⟩)
    · exact key h
    · cases hc; exact h
  · intro h
    rcases okay_or_fails (append_doEncode hg reg t) with ⟨q, hq⟩ | hf
    · refine .inl ?_
      cases ht with
      | array ht hn =>
        unfold doEncodeComposite at hq
        rw [ht] at hq
        simp only at hq
        rw [if_pos (by simpa using fun h => hn h.symm)] at hq
        exact (okay_not_fails hq (fails_fail _)).elim
      | tuple ht hn' =>
        unfold doEncodeComposite
        rw [ht]
        simp only
        rwa [do_asType_one hn (d := .tuple _) (by rw [skip_done hw]; exact ht), skip_done hw]
      | composite ht hn' =>
        unfold doEncodeComposite
        rw [ht]
        simp only
        rwa [do_asType_one hn (d := .composite _) (by rw [skip_done hw]; exact ht), skip_done hw]
    · exact .inr ⟨hf, c, rfl, h⟩

/-! ### Wrappers of types -/

theorem do_single_inner {reg : Reg Id} {cc : Bool} {cs : List (Child Id)} {vs : List (Value Γ)} (h : List.Forall₂ (Stands reg cc) cs vs)
    (hn : ∀ c ∈ cs, c.name = none) (hl : cs.length ≠ 1) {t : Id} {bs : List UInt8} (ho : Okay (doEncodeComposite reg cs t) bs) :
    Okay (doEncodeComposite reg cs (findSingle reg t).1) bs := by
  by_cases hs : ∃ u, SingleEntry reg t u
  · have hcomp : Okay (encCompositeAsType reg cs t) bs → Okay (doEncodeComposite reg cs (findSingle reg t).1) bs := by
      intro ho
      rw [← findSingle_skip]
      unfold encCompositeAsType at ho
      split at ho
      · exact (okay_not_fails ho (fails_fail _)).elim
      · rename_i fs hr
        split at ho
        · simp at hl
        · have hlen := encAll_length ((okay_fieldsTo_order h (.inl hn)).1 ho)
          rw [← forall₂_length h, List.length_map] at hlen
          have he : Entries reg (skip reg t) _ := .composite hr (by omega)
          rw [findSingle_done (entries_not_single he), okay_entries h hn hl he]
          exact (okay_fieldsTo_order h (.inl hn)).1 ho
      · rename_i ts hr
        split at ho
        · simp at hl
        · have hE := (okay_fieldsTo_order h (.inl hn)).1 ho
          rw [List.map_map] at hE
          simp only [Function.comp_def, List.map_id'] at hE
          have hlen := encAll_length hE
          rw [← forall₂_length h] at hlen
          have he : Entries reg (skip reg t) _ := .tuple hr (by omega)
          rw [findSingle_done (entries_not_single he), okay_entries h hn hl he]
          exact hE
      · split at ho
        · simp at hl
        · exact (okay_not_fails ho (fails_fail _)).elim
    obtain ⟨u, hs⟩ := hs
    unfold doEncodeComposite at ho
    cases hs with
    | composite hr => rw [hr] at ho; exact hcomp ho
    | tuple hr => rw [hr] at ho; exact hcomp ho
    | array hr =>
      rw [hr] at ho
      simp only at ho
      rw [if_pos hl] at ho
      exact (okay_not_fails ho (fails_fail _)).elim
  · rw [findSingle_done (not_exists.1 hs)]; exact ho

theorem okay_composite_inner {reg : Reg Id} {cc : Bool} {cs : List (Child Id)} {vs : List (Value Γ)} (h : List.Forall₂ (Stands reg cc) cs vs)
    (hn : ∀ c ∈ cs, c.name = none) (hl : cs.length ≠ 1) {t : Id} {bs : List UInt8} :
    Okay (encComposite reg cs t) bs ↔ Okay (doEncodeComposite reg cs (findSingle reg t).1) bs := by
  have hg := append_stands h
  rw [okay_composite_iff hg]
  constructor
  · rintro (h1 | ⟨-, h1 | ⟨-, c, hc, -⟩⟩)
    · exact do_single_inner h hn hl h1
    · exact h1
    · rw [hc] at hl; simp at hl
  · intro h1
    rcases okay_or_fails (append_doEncode hg reg t) with ⟨q, hq⟩ | hf
    · rw [okay_unique h1 (do_single_inner h hn hl hq)]; exact .inl hq
    · exact .inr ⟨hf, .inl h1⟩

/-! ### Atoms -/

theorem atom_same {reg : Reg Id} {cc : Bool} {v : Value Γ} (hv : IsAtom v) {t u : Id} (h : (findSingle reg t).1 = (findSingle reg u).1) :
    v.encode reg cc t = v.encode reg cc u := by
  obtain ⟨d, x⟩ := v
  obtain ⟨h1, h2, h3⟩ := hv
  cases d with
  | composite c => exact (h1 c rfl).elim
  | variant c => obtain ⟨n, c⟩ := c; rw [enc_variant, enc_variant]; unfold encVariant; rw [h]
  | bitSequence b => rw [enc_bits, enc_bits]; unfold encBits; rw [h]
  | primitive p =>
    rw [enc_prim, enc_prim]
    cases p with
    | bool b => unfold encPrimitive encBool; simp only [h]
    | char b => unfold encPrimitive encNum; simp only [h]
    | string b => unfold encPrimitive encStr; simp only [h]
    | u128 b => unfold encPrimitive encNum; simp only [h]
    | i128 b => unfold encPrimitive encNum; simp only [h]
    | u256 b => exact (h2 b rfl).elim
    | i256 b => exact (h3 b rfl).elim

theorem okay_inSingles {reg : Reg Id} {cc : Bool} {v w : Value Γ} (h : InSingles v w) (hw : IsAtom w) {t : Id} (hs : Simple reg t) {bs : List UInt8} :
    Okay (v.encode reg cc t) bs ↔ Okay (w.encode reg cc t) bs := by
  induction h generalizing t with
  | refl => rfl
  | @unnamed v w x _ ih =>
    rw [enc_unnamed]
    obtain ⟨d, h1, h2⟩ := simple_iff.1 hs
    have hg := append_vals reg cc [v]
    constructor
    · intro ho
      obtain ⟨u, hu, h3⟩ := okay_one_inv (c := childOf reg cc v) hg h1 h2 ho
      have := (ih hw ((simple_congr hu).2 hs)).1 h3
      rwa [atom_same hw hu] at this
    · intro ho
      refine okay_one (c := childOf reg cc v) hg h1 h2 ?_
      intro u hu
      refine (ih hw ((simple_congr hu).2 hs)).2 ?_
      rwa [atom_same hw hu]
  | @named n v w x _ ih =>
    rw [enc_named]
    obtain ⟨d, h1, h2⟩ := simple_iff.1 hs
    have hg := append_fields reg cc [(n, v)]
    constructor
    · intro ho
      obtain ⟨u, hu, h3⟩ := okay_one_inv (c := childNamed reg cc (n, v)) hg h1 h2 ho
      have := (ih hw ((simple_congr hu).2 hs)).1 h3
      rwa [atom_same hw hu] at this
    · intro ho
      refine okay_one (c := childNamed reg cc (n, v)) hg h1 h2 ?_
      intro u hu
      refine (ih hw ((simple_congr hu).2 hs)).2 ?_
      rwa [atom_same hw hu]

theorem encBytesN_stable (reg : Reg Id) (bs : List UInt8) : ∀ n m t, reg.rank t < n → reg.rank t < m → encBytesN reg bs n t = encBytesN reg bs m t := by
  intro n
  induction n with
  | zero => intro m t h; omega
  | succ n ih =>
    intro m t hn hm
    cases m with
    | zero => omega
    | succ m =>
      rw [encBytesN, encBytesN]
      split
      · rfl
      · rfl
      · rename_i f h
        have := reg.rank_lt t _ f.id h (by simp [TypeDef.inline])
        exact ih m _ (by omega) (by omega)
      · rename_i u h
        have := reg.rank_lt t _ u h (by simp [TypeDef.inline])
        exact ih m _ (by omega) (by omega)
      · rfl
      · rfl

/-! ### Bits -/

theorem bitOf_iff {v : Value Γ} {b : Bool} : bitOf v = some b ↔ IsBit v b := by
  obtain ⟨d, x⟩ := v
  constructor
  · intro h
    cases d with
    | composite c => simp [bitOf, Value.asBool, Value.asU128, Value.asI128, Value.value] at h
    | variant c => simp [bitOf, Value.asBool, Value.asU128, Value.asI128, Value.value] at h
    | bitSequence c => simp [bitOf, Value.asBool, Value.asU128, Value.asI128, Value.value] at h
    | primitive p =>
      cases p <;> simp [bitOf, Value.asBool, Value.asU128, Value.asI128, Value.value, Primitive.asBool, Primitive.asU128, Primitive.asI128] at h
      · subst h; exact .bool
      · refine .u128 ?_
        obtain ⟨h1, rfl⟩ := h
        rcases h1 with h1 | h1 <;> simp [h1]
      · refine .i128 ?_
        obtain ⟨h1, rfl⟩ := h
        rcases h1 with h1 | h1 <;> simp [h1]
  · intro h
    cases h with
    | bool => rfl
    | u128 h => simp [bitOf, Value.asBool, Value.asU128, Value.asI128, Value.value, Primitive.asBool, Primitive.asU128, Primitive.asI128, h]
    | i128 h => simp [bitOf, Value.asBool, Value.asU128, Value.asI128, Value.value, Primitive.asBool, Primitive.asU128, Primitive.asI128, h]

theorem encBools_iff {reg : Reg Id} {cc : Bool} {cs : List (Child Id)} {vs : List (Value Γ)} (h : List.Forall₂ (Stands reg cc) cs vs) {k : Nat} {b : List Bool} :
    encBools k cs = .ok b ↔ List.Forall₂ IsBit vs b := by
  induction h generalizing k b with
  | nil =>
    rw [encBools]
    constructor
    · intro h; cases h; exact .nil
    · intro h; cases h; rfl
  | @cons c v cs vs h h2 ih =>
    rw [encBools]
    split
    · rename_i hb
      constructor
      · intro h'; cases h'
      · intro h'
        cases h' with
        | cons h3 h4 => rw [h.2, bitOf_iff.2 h3] at hb; cases hb
    · rename_i b0 hb
      rw [h.2] at hb
      split
      · rename_i e he
        constructor
        · intro h'; cases h'
        · intro h'
          cases h' with
          | cons h3 h4 => rw [ih.2 h4] at he; cases he
      · rename_i bs he
        constructor
        · intro h'; cases h'; exact .cons (bitOf_iff.1 hb) (ih.1 he)
        · intro h'
          cases h' with
          | cons h3 h4 =>
            rw [bitOf_iff.2 h3] at hb; cases hb
            rw [ih.2 h4] at he; cases he; rfl

theorem okay_do_bits {reg : Reg Id} {cc : Bool} {cs : List (Child Id)} {vs : List (Value Γ)} (h : List.Forall₂ (Stands reg cc) cs vs) {t : Id} {s : BitStore} {o : BitOrder}
    (ht : reg.resolve t = some (.bitSequence s o)) {bs : List UInt8} :
    Okay (doEncodeComposite reg cs t) bs ↔ ∃ b, List.Forall₂ IsBit vs b ∧ bs = bitsEnc s o b := by
  unfold doEncodeComposite
  rw [ht]
  simp only
  cases he : encBools 0 cs with
  | error e =>
    simp only
    constructor
    · intro ho; exact (okay_not_fails ho (fails_error _)).elim
    · rintro ⟨b, hb, -⟩; rw [(encBools_iff h).2 hb] at he; cases he
  | ok b =>
    simp only
    rw [okay_write_iff]
    constructor
    · rintro rfl; exact ⟨b, (encBools_iff h).1 he, rfl⟩
    · rintro ⟨b', hb, rfl⟩; rw [(encBools_iff h).2 hb] at he; cases he; rfl

end SV
