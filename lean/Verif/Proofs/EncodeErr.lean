import Verif.Proofs.EncodeRules
/-
The errors of the encoder.
-/
namespace SV

variable {Id Γ : Type}

/-! ### Where errors point -/

/-- All errors of `a` have a path in `P`. -/
def ErrsIn (P : List ELoc → Prop) (a : EncM Id) : Prop := ∀ out e o, a out = (.error e, o) → P e.path

theorem errsIn_mono {P Q : List ELoc → Prop} (h : ∀ p, P p → Q p) {a : EncM Id} (ha : ErrsIn P a) : ErrsIn Q a :=
  fun out e o he => h _ (ha out e o he)

theorem errsIn_fail {P : List ELoc → Prop} (h : P []) (k : EKind Id) : ErrsIn P (.fail k) := by
  intro out e o he; simp only [EncM.fail, EErr.of, Prod.mk.injEq, Except.error.injEq] at he; rw [← he.1]; exact h

theorem errsIn_write {P : List ELoc → Prop} (bs : List UInt8) : ErrsIn P (.write bs : EncM Id) := by
  intro out e o he; simp [EncM.write] at he

theorem errsIn_done {P : List ELoc → Prop} : ErrsIn P (fun out => (.ok (), out) : EncM Id) := by
  intro out e o he; simp at he

theorem errsIn_seq {P : List ELoc → Prop} {a b : EncM Id} (ha : ErrsIn P a) (hb : ErrsIn P b) : ErrsIn P (.seq a b) := by
  intro out e o he
  unfold EncM.seq at he
  split at he
  · exact hb _ _ _ he
  · rename_i e' o' h; simp only [Prod.mk.injEq, Except.error.injEq] at he; rw [← he.1]; exact ha _ _ _ h

theorem errsIn_mapErr {P Q : List ELoc → Prop} {f : EErr Id → EErr Id} (h : ∀ e, Q e.path → P (f e).path) {a : EncM Id} (ha : ErrsIn Q a) :
    ErrsIn P (.mapErr f a) := by
  intro out e o he
  unfold EncM.mapErr at he
  split at he
  · simp at he
  · rename_i e' o' h'; simp only [Prod.mk.injEq, Except.error.injEq] at he; rw [← he.1]; exact h _ (ha _ _ _ h')

/-- What the errors of the children must be like for the errors of the whole to be in `P`: for the child number `k + i`. -/
def ChildErrs (P : List ELoc → Prop) (k : Nat) (cs : List (Child Id)) : Prop :=
  ∀ i c, cs[i]? = some c → ∀ t, ErrsIn (fun p => P (.idx (k + i) :: p) ∧ ∀ n, c.name = some n → P (.field n :: p)) (c.enc t)

theorem ChildErrs.head {P : List ELoc → Prop} {k : Nat} {c : Child Id} {cs : List (Child Id)} (h : ChildErrs P k (c :: cs)) (t : Id) :
    ErrsIn (fun p => P (.idx k :: p) ∧ ∀ n, c.name = some n → P (.field n :: p)) (c.enc t) := h 0 c rfl t

theorem ChildErrs.tail {P : List ELoc → Prop} {k : Nat} {c : Child Id} {cs : List (Child Id)} (h : ChildErrs P k (c :: cs)) : ChildErrs P (k + 1) cs := by
  intro i d hd t
  have := h (i + 1) d (by simpa using hd) t
  rwa [show k + (i + 1) = k + 1 + i by omega] at this

theorem errsIn_items {P : List ELoc → Prop} (t : Id) (nm : Bool) : ∀ {k : Nat} {cs : List (Child Id)}, ChildErrs P k cs → ErrsIn P (encItems t nm k cs)
  | _, [], _ => errsIn_done
  | k, c :: cs, h => by
    unfold encItems
    refine errsIn_seq (errsIn_mapErr ?_ (h.head t)) (errsIn_items t nm h.tail)
    intro e he
    split
    · exact he.2 _ ‹_›
    · exact he.1

theorem errsIn_byOrder {P : List ELoc → Prop} : ∀ {k : Nat} {cs : List (Child Id)} (fs : List (Field Id)), ChildErrs P k cs → ErrsIn P (encByOrder k cs fs)
  | _, [], _, _ => by unfold encByOrder; exact errsIn_done
  | _, _ :: _, [], _ => by unfold encByOrder; exact errsIn_done
  | k, c :: cs, f :: fs, h => by
    unfold encByOrder
    refine errsIn_seq (errsIn_mapErr ?_ (h.head f.id)) (errsIn_byOrder fs h.tail)
    intro e he
    split
    · exact he.2 _ ‹_›
    · exact he.1

theorem errsIn_byName {P : List ELoc → Prop} (h0 : P []) {cs : List (Child Id)} (h : ChildErrs P 0 cs) (hn : ∀ c ∈ cs, c.name.isSome) :
    ∀ fs : List (Field Id), ErrsIn P (encByName cs fs)
  | [] => errsIn_done
  | f :: fs => by
    unfold encByName
    split
    · exact errsIn_fail h0 _
    · rename_i c hc
      have hm : c ∈ cs := by simpa using List.mem_of_find?_eq_some hc
      have hf := List.find?_some hc
      obtain ⟨i, hi⟩ := List.mem_iff_getElem?.1 hm
      refine errsIn_seq (errsIn_mapErr ?_ (h i c hi f.id)) (errsIn_byName h0 h hn fs)
      intro e he
      refine he.2 _ ?_
      have := hn c hm
      cases hcn : c.name with
      | none => rw [hcn] at this; cases this
      | some n => rw [hcn] at hf; simp at hf; rw [hf]

/-- The names of children: all of them have one, or none. -/
def NamesUniform (cs : List (Child Id)) : Prop := (∀ c ∈ cs, c.name.isSome) ∨ (∀ c ∈ cs, c.name = none)

theorem errsIn_fieldsTo {P : List ELoc → Prop} (h0 : P []) {cs : List (Child Id)} (h : ChildErrs P 0 cs) (hn : NamesUniform cs) (fs : List (Field Id)) :
    ErrsIn P (encFieldsTo cs fs) := by
  unfold encFieldsTo
  split
  · rename_i hb
    refine errsIn_byName h0 h ?_ fs
    rcases hn with hn | hn
    · exact hn
    · simp only [Bool.and_eq_true, List.any_eq_true] at hb
      obtain ⟨-, c, hc, h1⟩ := hb
      rw [hn c hc] at h1; cases h1
  · split
    · exact errsIn_fail h0 _
    · exact errsIn_byOrder fs h

theorem errsIn_compositeAsType {P : List ELoc → Prop} (h0 : P []) {cs : List (Child Id)} (h : ChildErrs P 0 cs) (hn : NamesUniform cs)
    (h1 : ∀ c, cs = [c] → ∀ t, ErrsIn P (c.enc t)) (reg : Reg Id) (t : Id) : ErrsIn P (encCompositeAsType reg cs t) := by
  unfold encCompositeAsType
  split
  · exact errsIn_fail h0 _
  · split
    · exact h1 _ rfl _
    · exact errsIn_fieldsTo h0 h hn _
  · split
    · exact h1 _ rfl _
    · exact errsIn_fieldsTo h0 h hn _
  · split
    · exact h1 _ rfl _
    · exact errsIn_fail h0 _

theorem errs_bools {P : List ELoc → Prop} : ∀ {k : Nat} {cs : List (Child Id)}, (∀ i, i < cs.length → P [.idx (k + i)]) → ∀ e, encBools k cs = .error e → P e.path
  | _, [], _, e, he => by simp [encBools] at he
  | k, c :: cs, h, e, he => by
    unfold encBools at he
    split at he
    · simp only [Except.error.injEq] at he; rw [← he]; exact h 0 (by simp)
    · split at he
      · rename_i h'
        simp only [Except.error.injEq] at he; rw [← he]
        refine errs_bools (k := k + 1) ?_ _ h'
        intro i hi
        have := h (i + 1) (by simpa using hi)
        rwa [show k + (i + 1) = k + 1 + i by omega] at this
      · cases he

theorem errsIn_do {P : List ELoc → Prop} (h0 : P []) {cs : List (Child Id)} (h : ChildErrs P 0 cs) (hn : NamesUniform cs)
    (h1 : ∀ c, cs = [c] → ∀ t, ErrsIn P (c.enc t)) (hb : ∀ i, i < cs.length → P [.idx i]) (reg : Reg Id) (t : Id) : ErrsIn P (doEncodeComposite reg cs t) := by
  unfold doEncodeComposite
  split
  · exact errsIn_compositeAsType h0 h hn h1 reg t
  · exact errsIn_compositeAsType h0 h hn h1 reg t
  · exact errsIn_seq (errsIn_write _) (errsIn_items _ _ h)
  · split
    · exact errsIn_fail h0 _
    · exact errsIn_items _ _ h
  · split
    · rename_i e' he
      intro out e o h
      simp only [Prod.mk.injEq, Except.error.injEq] at h
      rw [← h.1]
      exact errs_bools (by simpa using hb) _ he
    · exact errsIn_write _
  · split
    · exact h1 _ rfl _
    · exact errsIn_fail h0 _

theorem errsIn_composite {P : List ELoc → Prop} (h0 : P []) {cs : List (Child Id)} (h : ChildErrs P 0 cs) (hn : NamesUniform cs)
    (h1 : ∀ c, cs = [c] → ∀ t, ErrsIn P (c.enc t)) (hb : ∀ i, i < cs.length → P [.idx i]) (reg : Reg Id) (t : Id) : ErrsIn P (encComposite reg cs t) := by
  have hd := errsIn_do h0 h hn h1 hb reg t
  have hl : ∀ u e0 out e o, P e0.path → encLast cs u e0 out = (.error e, o) → P e.path := by
    intro u e0 out e o hP hl
    unfold encLast at hl
    split at hl
    · split at hl
      · simp at hl
      · simp only [Prod.mk.injEq, Except.error.injEq] at hl; rw [← hl.1]; exact hP
    · simp only [Prod.mk.injEq, Except.error.injEq] at hl; rw [← hl.1]; exact hP
  intro out e o he
  unfold encComposite at he
  split at he
  · simp at he
  · rename_i e0 o0 h0'
    have hP := hd _ _ _ h0'
    split at he
    · split at he
      · simp at he
      · exact hl _ _ _ _ _ hP he
    · exact hl _ _ _ _ _ hP he

theorem errsIn_variant {P : List ELoc → Prop} (h0 : P []) {cs : List (Child Id)} (h : ChildErrs P 0 cs) (hn : NamesUniform cs)
    (reg : Reg Id) (n : Str) (t : Id) : ErrsIn P (encVariant reg n cs t) := by
  unfold encVariant
  split
  · split
    · exact errsIn_fail h0 _
    · exact errsIn_seq (errsIn_write _) (errsIn_fieldsTo h0 h hn _)
  · exact errsIn_fail h0 _
  · exact errsIn_fail h0 _

theorem errsIn_num {P : List ELoc → Prop} (h0 : P []) (reg : Reg Id) (cc : Bool) (n : Int) (t : Id) : ErrsIn P (encNum reg cc n t) := by
  have e1 : ∀ (u : Id) k n, ErrsIn P (encUintK u k n) := by intro u k n; unfold encUintK; split <;> first | exact errsIn_write _ | exact errsIn_fail h0 _
  have e2 : ∀ (u : Id) k n, ErrsIn P (encIntK u k n) := by intro u k n; unfold encIntK; split <;> first | exact errsIn_write _ | exact errsIn_fail h0 _
  have e3 : ∀ (u : Id) k n, ErrsIn P (encCompactK u k n) := by intro u k n; unfold encCompactK; split <;> first | exact errsIn_write _ | exact errsIn_fail h0 _
  unfold encNum
  dsimp only
  split <;> first | exact e1 _ _ _ | exact e2 _ _ _ | exact errsIn_fail h0 _ | skip
  · split
    · exact e1 _ _ _
    · exact errsIn_fail h0 _
  · split <;> first | exact e3 _ _ _ | exact errsIn_fail h0 _

theorem errsIn_bytes {P : List ELoc → Prop} (h0 : P []) (reg : Reg Id) (bs : List UInt8) (hb : ∀ i, i < bs.length → P [.idx i]) : ∀ n t, ErrsIn P (encBytesN reg bs n t)
  | 0, t => errsIn_fail h0 _
  | n + 1, t => by
    have hc : ChildErrs P 0 (byteChildren reg bs) := by
      intro i c hc t
      simp only [byteChildren, List.getElem?_map, Option.map_eq_some_iff] at hc
      obtain ⟨b, hb', rfl⟩ := hc
      have hi : i < bs.length := (List.getElem?_eq_some_iff.1 hb').1
      refine errsIn_num (P := fun p => P (.idx (0 + i) :: p) ∧ ∀ n, none = some n → P (.field n :: p)) ⟨?_, by simp⟩ _ _ _ _
      simpa using hb i hi
    unfold encBytesN
    split
    · split
      · exact errsIn_fail h0 _
      · exact errsIn_items _ _ hc
    · exact errsIn_seq (errsIn_write _) (errsIn_items _ _ hc)
    · exact errsIn_bytes h0 reg bs hb n _
    · exact errsIn_bytes h0 reg bs hb n _
    · exact errsIn_fail h0 _
    · exact errsIn_fail h0 _

theorem names_uniform (reg : Reg Id) (cc : Bool) (c : Composite Γ) : NamesUniform (c.encChildren reg cc) := by
  cases c with
  | named fs =>
    refine .inl ?_
    rw [Composite.encChildren, encNamed_eq]
    intro c hc
    obtain ⟨p, -, rfl⟩ := List.mem_map.1 hc
    rfl
  | unnamed vs => exact .inr (unnamed_none reg cc vs)

/-- The children of a composite have their errors in the right place if the values have. -/
theorem child_errs {reg : Reg Id} {cc : Bool} {P : List ELoc → Prop} {c : Composite Γ} (ih : ∀ w ∈ c.vals, ∀ t, ErrsIn (Locates w) (w.encode reg cc t))
    (hi : ∀ (i : Nat) w p, c.vals[i]? = some w → Locates w p → P (.idx i :: p)) (hf : ∀ l n w p, c = .named l → (n, w) ∈ l → Locates w p → P (.field n :: p)) :
    ChildErrs P 0 (c.encChildren reg cc) := by
  intro i k hk t
  cases c with
  | named l =>
    rw [Composite.encChildren, encNamed_eq, List.getElem?_map, Option.map_eq_some_iff] at hk
    obtain ⟨⟨n, w⟩, hw, rfl⟩ := hk
    have hv : (Composite.named l).vals[i]? = some w := by simp [Composite.vals, hw]
    refine errsIn_mono ?_ (ih w (List.mem_of_getElem? hv) t)
    intro p hp
    refine ⟨by simpa using hi i w p hv hp, ?_⟩
    intro m hm
    cases hm
    exact hf l n w p rfl (List.mem_of_getElem? hw) hp
  | unnamed l =>
    rw [Composite.encChildren, encUnnamed_eq, List.getElem?_map, Option.map_eq_some_iff] at hk
    obtain ⟨w, hw, rfl⟩ := hk
    have hv : (Composite.unnamed l).vals[i]? = some w := by simp [Composite.vals, hw]
    refine errsIn_mono ?_ (ih w (List.mem_of_getElem? hv) t)
    intro p hp
    exact ⟨by simpa using hi i w p hv hp, fun m hm => by cases hm⟩

theorem child_locates {reg : Reg Id} {cc : Bool} {v : Value Γ} {c : Composite Γ} (hv : v.fields? = some c)
    (ih : ∀ w ∈ c.vals, ∀ t, ErrsIn (Locates w) (w.encode reg cc t)) : ChildErrs (Locates v) 0 (c.encChildren reg cc) :=
  child_errs ih (fun _ _ _ hw hp => .idx hv hw hp) (fun l n w p hl hm hp => by subst hl; exact .field hv hm hp)

theorem single_child' {reg : Reg Id} {cc : Bool} {c : Composite Γ} {k : Child Id} (h : c.encChildren reg cc = [k]) :
    ∃ v, c.vals = [v] ∧ k.enc = v.encode reg cc := by
  have := children_cases reg cc c
  rw [h] at this
  generalize c.vals = vs at this
  cases this with
  | cons h1 h2 => cases h2; exact ⟨_, rfl, h1.1⟩

theorem locates_composite {reg : Reg Id} {cc : Bool} {c : Composite Γ} {x : Γ} (ih : ∀ w ∈ c.vals, ∀ t, ErrsIn (Locates w) (w.encode reg cc t)) (t : Id) :
    ErrsIn (Locates (.mk (.composite c) x)) ((Value.mk (.composite c) x).encode reg cc t) := by
  rw [enc_composite]
  refine errsIn_composite (.here _) (child_locates rfl ih) (names_uniform reg cc c) ?_ ?_ reg t
  · intro k hk u
    obtain ⟨w, hw, he⟩ := single_child' hk
    rw [he]
    exact errsIn_mono (fun p hp => .single rfl hw hp) (ih w (by simp [hw]) u)
  · intro i hi
    rw [forall₂_length (children_cases reg cc c)] at hi
    exact .idx rfl (List.getElem?_eq_getElem hi) (.here _)

theorem locates_all (reg : Reg Id) (cc : Bool) (v : Value Γ) : ∀ t, ErrsIn (Locates v) (v.encode reg cc t) := by
  induction v using Value.ind with
  | named fs x ih =>
    refine locates_composite ?_
    intro w hw; simp only [Composite.vals, List.mem_map] at hw
    obtain ⟨p, hp, rfl⟩ := hw
    exact ih p hp
  | unnamed vs x ih => exact locates_composite (by simpa [Composite.vals] using ih)
  | vnamed n fs x ih =>
    intro t
    rw [enc_variant]
    refine errsIn_variant (.here _) (child_locates rfl ?_) (names_uniform reg cc _) reg n t
    intro w hw; simp only [Composite.vals, List.mem_map] at hw
    obtain ⟨p, hp, rfl⟩ := hw
    exact ih p hp
  | vunnamed n vs x ih =>
    intro t
    rw [enc_variant]
    exact errsIn_variant (.here _) (child_locates rfl (by simpa [Composite.vals] using ih)) (names_uniform reg cc _) reg n t
  | bits b x =>
    intro t
    rw [enc_bits]; unfold encBits; dsimp only
    split <;> first | exact errsIn_write _ | exact errsIn_fail (.here _) _
  | prim p x =>
    intro t
    rw [enc_prim]; unfold encPrimitive
    split
    · unfold encBool; dsimp only
      split <;> first | exact errsIn_write _ | exact errsIn_fail (.here _) _
    · exact errsIn_num (.here _) _ _ _ _
    · unfold encStr; dsimp only
      split <;> first | exact errsIn_write _ | exact errsIn_fail (.here _) _
    · exact errsIn_num (.here _) _ _ _ _
    · exact errsIn_num (.here _) _ _ _ _
    · rename_i b
      exact errsIn_bytes (.here _) _ _ (fun i hi => .byte (b := b) (.inl rfl) (by have := b.len; omega)) _ _
    · rename_i b
      exact errsIn_bytes (.here _) _ _ (fun i hi => .byte (b := b) (.inr rfl) (by have := b.len; omega)) _ _

/-! ### Which error it is -/

theorem failsWith_fails {a : EncM Id} {e : EErr Id} (h : FailsWith a e) : Fails a := fun out => ⟨e, h out⟩

theorem failsWith_of {a : EncM Id} (ha : AppendOnly a) {e : EErr Id} {o} (h : a [] = (.error e, o)) : FailsWith a e := fun out => ⟨_, by rw [ha out, h]⟩

theorem failsWith_unique {a : EncM Id} {e f : EErr Id} (h : FailsWith a e) (h' : FailsWith a f) : e = f := by
  obtain ⟨o, h⟩ := h []
  obtain ⟨o', h'⟩ := h' []
  rw [h] at h'; cases h'; rfl

/-- An encoding succeeds, or fails with one error. -/
theorem okay_or_failsWith {a : EncM Id} (ha : AppendOnly a) : (∃ bs, Okay a bs) ∨ ∃ e, FailsWith a e := by
  rcases hx : a [] with ⟨_ | _, o⟩
  · exact .inr ⟨_, failsWith_of ha hx⟩
  · exact .inl ⟨o, (okay_iff ha).2 hx⟩

theorem fails_failsWith {a : EncM Id} (ha : AppendOnly a) (h : Fails a) : ∃ e, FailsWith a e := by
  rcases okay_or_failsWith ha with ⟨bs, h'⟩ | h'
  · exact (okay_not_fails h' h).elim
  · exact h'

theorem failsWith_fail (k : EKind Id) : FailsWith (.fail k) ⟨[], k⟩ := fun out => ⟨out, rfl⟩

theorem failsWith_seq_left {a b : EncM Id} {e : EErr Id} (ha : FailsWith a e) : FailsWith (.seq a b) e := by
  intro out; obtain ⟨o, h⟩ := ha out; exact ⟨o, by unfold EncM.seq; rw [h]⟩

theorem failsWith_seq_right {a b : EncM Id} {x} {e : EErr Id} (ha : Okay a x) (hb : FailsWith b e) : FailsWith (.seq a b) e := by
  intro out; obtain ⟨o, h⟩ := hb (out ++ x); exact ⟨o, by unfold EncM.seq; rw [ha out]; exact h⟩

theorem failsWith_mapErr {f : EErr Id → EErr Id} {a : EncM Id} {e : EErr Id} (ha : FailsWith a e) : FailsWith (.mapErr f a) (f e) := by
  intro out; obtain ⟨o, h⟩ := ha out; exact ⟨o, by unfold EncM.mapErr; rw [h]⟩

/-- The name of a child, or its number. -/
def Child.at (c : Child Id) (k : Nat) : ELoc := match c.name with
  | some s => .field s
  | none => .idx k

/-- The children encode at the types up to one that fails. -/
theorem failsWith_items {u : Id} {nm : Bool} {e : EErr Id} {c : Child Id} {after : List (Child Id)} (he : FailsWith (c.enc u) e) :
    ∀ {before : List (Child Id)} {k : Nat}, (∀ d ∈ before, ∃ bs, Okay (d.enc u) bs) →
      FailsWith (encItems u nm k (before ++ c :: after)) (e.under (if nm then c.at (k + before.length) else .idx (k + before.length)))
  | [], k, _ => by
    show FailsWith (encItems u nm k (c :: after)) _
    unfold encItems
    have heq : e.under (if nm then c.at (k + ([] : List (Child Id)).length) else .idx (k + ([] : List (Child Id)).length)) = (match nm, c.name with
        | true, some s => e.atField s
        | _, _ => e.atIdx k) := by
      cases nm with
      | false => simp [EErr.under, EErr.atIdx]
      | true => cases hc : c.name <;> simp [EErr.under, EErr.atIdx, EErr.atField, Child.at, hc]
    rw [heq]
    exact failsWith_seq_left (failsWith_mapErr (f := fun e => match nm, c.name with
        | true, some s => e.atField s
        | _, _ => e.atIdx k) he)
  | d :: before, k, h => by
    obtain ⟨bs, hd⟩ := h d (by simp)
    have := failsWith_items (nm := nm) (after := after) he (before := before) (k := k + 1) (fun d hd => h d (by simp [hd]))
    show FailsWith (encItems u nm k (d :: (before ++ c :: after))) _
    unfold encItems
    rw [List.length_cons, show k + (before.length + 1) = k + 1 + before.length by omega]
    exact failsWith_seq_right (okay_mapErr hd) this

theorem failsWith_byOrder {f : Field Id} {e : EErr Id} {c : Child Id} {after : List (Child Id)} {fs' : List (Field Id)} (he : FailsWith (c.enc f.id) e) :
    ∀ {before : List (Child Id)} {fs : List (Field Id)} {k : Nat}, List.Forall₂ (fun d (g : Field Id) => ∃ bs, Okay (d.enc g.id) bs) before fs →
      FailsWith (encByOrder k (before ++ c :: after) (fs ++ f :: fs')) (e.under (c.at (k + before.length)))
  | _, _, k, .nil => by
    show FailsWith (encByOrder k (c :: after) (f :: fs')) _
    unfold encByOrder
    have heq : e.under (c.at (k + ([] : List (Child Id)).length)) = (match c.name with
        | some s => e.atField s
        | none => e.atIdx k) := by
      cases hc : c.name <;> simp [EErr.under, EErr.atIdx, EErr.atField, Child.at, hc]
    rw [heq]
    exact failsWith_seq_left (failsWith_mapErr (f := fun e => match c.name with
        | some s => e.atField s
        | none => e.atIdx k) he)
  | d :: before, g :: fs, k, .cons hd h => by
    obtain ⟨bs, hd⟩ := hd
    have := failsWith_byOrder (after := after) (fs' := fs') he (k := k + 1) h
    show FailsWith (encByOrder k (d :: (before ++ c :: after)) (g :: (fs ++ f :: fs'))) _
    unfold encByOrder
    rw [List.length_cons, show k + (before.length + 1) = k + 1 + before.length by omega]
    exact failsWith_seq_right (okay_mapErr hd) this

/-- From values to children. -/
theorem firstFailing_children {reg : Reg Id} {cc : Bool} {cs : List (Child Id)} {vs : List (Value Γ)} (h : List.Forall₂ (Stands reg cc) cs vs) {ts : List Id} {i : Nat} {e : EErr Id}
    (hf : FirstFailing reg cc ts vs i e) : ∃ before c after ts₁ t ts₂, cs = before ++ c :: after ∧ before.length = i ∧ ts = ts₁ ++ t :: ts₂ ∧
      List.Forall₂ (fun d u => ∃ bs, Okay (d.enc u) bs) before ts₁ ∧ FailsWith (c.enc t) e := by
  obtain ⟨ts₁, t, ts₂, vs₁, v, vs₂, bs, rfl, rfl, hl, ha, hv⟩ := hf
  refine (?_ : ∀ i, vs₁.length = i → ∃ before c after ts₁' t' ts₂', cs = before ++ c :: after ∧ before.length = i ∧ ts₁ ++ t :: ts₂ = ts₁' ++ t' :: ts₂' ∧
      List.Forall₂ (fun d u => ∃ bs, Okay (d.enc u) bs) before ts₁' ∧ FailsWith (c.enc t') e) i hl
  clear hl i
  intro i hl
  subst hl
  induction ha generalizing cs with
  | nil =>
    cases h with
    | cons h1 h2 => exact ⟨[], _, _, [], t, ts₂, rfl, rfl, rfl, .nil, by rw [h1.1]; exact hv⟩
  | cons ho _ ih =>
    cases h with
    | @cons d _ cs' _ h1 h2 =>
      obtain ⟨before, c, after, ts₁', t', ts₂', rfl, h3, h4, h5, h6⟩ := ih h2
      refine ⟨d :: before, c, after, _ :: ts₁', t', ts₂', rfl, by simp [h3], by rw [List.cons_append, h4]; rfl, .cons ⟨_, by rw [h1.1]; exact ho⟩ h5, h6⟩

theorem replicate_split {A : Type} {n : Nat} {u t : A} {l₁ l₂ : List A} (h : List.replicate n u = l₁ ++ t :: l₂) : t = u ∧ ∀ a ∈ l₁, a = u :=
  ⟨List.eq_of_mem_replicate (n := n) (by rw [h]; simp), fun a ha => List.eq_of_mem_replicate (n := n) (by rw [h]; simp [ha])⟩

theorem forall₂_left {A B : Type} {R : A → B → Prop} {l : List A} {m : List B} (h : List.Forall₂ R l m) : ∀ a ∈ l, ∃ b ∈ m, R a b := by
  induction h with
  | nil => simp
  | cons h1 _ ih =>
    intro a ha
    rcases List.mem_cons.1 ha with rfl | ha
    · exact ⟨_, by simp, h1⟩
    · obtain ⟨b, hb, hr⟩ := ih a ha; exact ⟨b, by simp [hb], hr⟩

theorem firstFailing_items {reg : Reg Id} {cc : Bool} {cs : List (Child Id)} {vs : List (Value Γ)} (h : List.Forall₂ (Stands reg cc) cs vs) {u : Id} {nm : Bool} {i : Nat} {e : EErr Id}
    (hf : FirstFailing reg cc (List.replicate vs.length u) vs i e) : ∃ c, cs[i]? = some c ∧ FailsWith (encItems u nm 0 cs) (e.under (if nm then c.at i else .idx i)) := by
  obtain ⟨before, c, after, ts₁, t, ts₂, rfl, rfl, h3, h4, h5⟩ := firstFailing_children h hf
  obtain ⟨rfl, h6⟩ := replicate_split h3
  refine ⟨c, by simp, ?_⟩
  have := failsWith_items (nm := nm) (after := after) h5 (before := before) (k := 0) (by
    intro d hd
    obtain ⟨b, hb, ho⟩ := forall₂_left h4 d hd
    rw [h6 b hb] at ho
    exact ho)
  simpa using this

theorem firstFailing_byOrder {reg : Reg Id} {cc : Bool} {cs : List (Child Id)} {vs : List (Value Γ)} (h : List.Forall₂ (Stands reg cc) cs vs) {fs : List (Field Id)} {i : Nat} {e : EErr Id}
    (hf : FirstFailing reg cc (fs.map (fun f => f.id)) vs i e) : ∃ c, cs[i]? = some c ∧ FailsWith (encByOrder 0 cs fs) (e.under (c.at i)) := by
  obtain ⟨before, c, after, ts₁, t, ts₂, rfl, rfl, h3, h4, h5⟩ := firstFailing_children h hf
  obtain ⟨fs₁, fs', rfl, rfl, h6⟩ := List.map_eq_append_iff.1 h3
  obtain ⟨f, fs₂, rfl, rfl, rfl⟩ := List.map_eq_cons_iff.1 h6
  refine ⟨c, by simp, ?_⟩
  have h4' : List.Forall₂ (fun d (g : Field Id) => ∃ bs, Okay (d.enc g.id) bs) before fs₁ := by
    clear h h3 hf h6 h5
    induction fs₁ generalizing before with
    | nil => cases h4; exact .nil
    | cons f fs₁ ih => cases h4 with
      | cons h1 h2 => exact .cons h1 (ih _ h2)
  simpa using failsWith_byOrder (after := after) (fs' := fs₂) h5 (k := 0) h4'

theorem at_loc {reg : Reg Id} {cc : Bool} {c : Composite Γ} {i : Nat} {k : Child Id} (h : (c.encChildren reg cc)[i]? = some k) : k.at i = c.loc i := by
  cases c with
  | named l =>
    rw [Composite.encChildren, encNamed_eq, List.getElem?_map, Option.map_eq_some_iff] at h
    obtain ⟨⟨n, w⟩, hw, rfl⟩ := h
    simp [Composite.loc, hw, Child.at, childNamed]
  | unnamed l =>
    rw [Composite.encChildren, encUnnamed_eq, List.getElem?_map, Option.map_eq_some_iff] at h
    obtain ⟨w, hw, rfl⟩ := h
    simp [Composite.loc, Child.at, childOf]

theorem failsWith_last {cs : List (Child Id)} {t : Id} {e : EErr Id} (h : ∀ c, cs = [c] → Fails (c.enc t)) : FailsWith (encLast cs t e) e := by
  intro out
  unfold encLast
  split
  · rename_i c
    obtain ⟨e', o, h'⟩ := h c rfl []
    rw [h']
    exact ⟨out, rfl⟩
  · exact ⟨out, rfl⟩

/-- The error of a composite is that of the first attempt. -/
theorem failsWith_composite {reg : Reg Id} {cs : List (Child Id)} (hg : AppendOnlyAll cs) {t : Id} {e : EErr Id} (h : FailsWith (doEncodeComposite reg cs t) e)
    (hf : Fails (encComposite reg cs t)) : FailsWith (encComposite reg cs t) e := by
  intro out
  obtain ⟨e', o', h'⟩ := hf out
  obtain ⟨o, h⟩ := h []
  rw [h']
  unfold encComposite at h'
  rw [h] at h'
  simp only at h'
  have hl : ∀ u e' o', encLast cs u e out = (.error e', o') → e' = e := by
    intro u e' o' hl
    unfold encLast at hl
    split at hl
    · split at hl
      · simp at hl
      · simp only [Prod.mk.injEq, Except.error.injEq] at hl; exact hl.1.symm
    · simp only [Prod.mk.injEq, Except.error.injEq] at hl; exact hl.1.symm
  have : e' = e := by
    split at h'
    · split at h'
      · simp at h'
      · exact hl _ _ _ h'
    · exact hl _ _ _ h'
  exact ⟨o', by rw [this]⟩

theorem failsWith_composite_done {reg : Reg Id} {cs : List (Child Id)} (hg : AppendOnlyAll cs) {t : Id} {e : EErr Id} (hs : ∀ u, ¬ SingleEntry reg t u)
    (h : FailsWith (doEncodeComposite reg cs t) e) (h1 : ∀ c, cs = [c] → Fails (c.enc t)) : FailsWith (encComposite reg cs t) e := by
  refine failsWith_composite hg h ((fails_iff (append_composite reg cs t)).2 ?_)
  intro r hr
  rcases (okay_composite_done hg hs).1 hr with h' | ⟨-, c, rfl, h'⟩
  · exact okay_not_fails h' (failsWith_fails h)
  · exact okay_not_fails h' (h1 c rfl)

/-! ### Fields by name -/

theorem failsWith_byName {reg : Reg Id} {cc : Bool} {l : List (Str × Value Γ)} {fs : List (Str × Id)} {e : EErr Id} (h : FirstField reg cc l fs e) :
    FailsWith (encByName (l.map (childNamed reg cc)) (fs.map (fun p => ⟨some p.1, p.2⟩))) e := by
  have pre : ∀ {fs₁ bs} {rest : List (Field Id)} {e}, EncByName reg cc l fs₁ bs → FailsWith (encByName (l.map (childNamed reg cc)) rest) e →
      FailsWith (encByName (l.map (childNamed reg cc)) (fs₁.map (fun p => ⟨some p.1, p.2⟩) ++ rest)) e := by
    intro fs₁ bs rest e he hr
    induction he with
    | nil => exact hr
    | @cons n t fs v bs bs' h1 h2 _ ih =>
      show FailsWith (encByName _ (⟨some n, t⟩ :: _)) e
      unfold encByName
      obtain ⟨c, hc⟩ : ∃ c, c = childNamed reg cc (n, v) := ⟨_, rfl⟩
      rw [show (l.map (childNamed reg cc)).reverse.find? (fun c => c.name.getD [] == (some n).getD []) = some (childNamed reg cc (n, v)) from
        find_last.2 ⟨v, h1, rfl⟩]
      exact failsWith_seq_right (okay_mapErr h2) ih
  cases h with
  | @missing fs₁ n t fs₂ bs h1 h2 h3 =>
    subst h1
    rw [List.map_append]
    refine pre h2 ?_
    show FailsWith (encByName _ (⟨some n, t⟩ :: _)) _
    unfold encByName
    rw [show (l.map (childNamed reg cc)).reverse.find? (fun c => c.name.getD [] == (some n).getD []) = none from ?_]
    · exact failsWith_fail _
    · rw [List.find?_eq_none]
      intro c hc
      simp only [List.mem_reverse, List.mem_map] at hc
      obtain ⟨⟨m, w⟩, hm, rfl⟩ := hc
      simp only [childNamed, Option.getD_some, beq_iff_eq]
      rintro rfl
      exact h3 w hm
  | @fails fs₁ n t fs₂ bs v e h1 h2 h3 h4 =>
    subst h1
    rw [List.map_append]
    refine pre h2 ?_
    show FailsWith (encByName _ (⟨some n, t⟩ :: _)) _
    unfold encByName
    rw [show (l.map (childNamed reg cc)).reverse.find? (fun c => c.name.getD [] == (some n).getD []) = some (childNamed reg cc (n, v)) from
        find_last.2 ⟨v, h3, rfl⟩]
    exact failsWith_seq_left (failsWith_mapErr (f := fun e => e.atField n) h4)

/-- With no values there are no names, and then the numbers are compared. -/
theorem failsWith_fieldsTo_named {reg : Reg Id} {cc : Bool} {l : List (Str × Value Γ)} (hl : l ≠ []) {fs : List (Str × Id)} {e : EErr Id} (h : FirstField reg cc l fs e) :
    FailsWith (encFieldsTo (l.map (childNamed reg cc)) (fs.map (fun p => ⟨some p.1, p.2⟩))) e := by
  unfold encFieldsTo
  rw [if_pos]
  · exact failsWith_byName h
  · cases l with
    | nil => exact (hl rfl).elim
    | cons p l =>
      cases fs with
      | nil => cases h with
        | missing h => simp at h
        | fails h => simp at h
      | cons f fs => simp [childNamed]

theorem failsWith_fieldsTo_order {reg : Reg Id} {cc : Bool} {cs : List (Child Id)} {vs : List (Value Γ)} (h : List.Forall₂ (Stands reg cc) cs vs) {fs : List (Field Id)}
    (hn : (∀ c ∈ cs, c.name = none) ∨ ∀ f ∈ fs, f.name = none) :
    (vs.length ≠ fs.length → FailsWith (encFieldsTo cs fs) ⟨[], .wrongLength vs.length fs.length⟩) ∧
    (vs.length = fs.length → ∀ i e, FirstFailing reg cc (fs.map (fun f => f.id)) vs i e → ∃ c, cs[i]? = some c ∧ FailsWith (encFieldsTo cs fs) (e.under (c.at i))) := by
  have hb : ¬ (fs.any (fun f => f.name.isSome) && cs.any (fun c => c.name.isSome)) = true := by
    simp only [Bool.and_eq_true, List.any_eq_true, not_and, not_exists]
    rintro ⟨f, hf, h1⟩ c hc h2
    rcases hn with hn | hn
    · rw [hn c hc] at h2; cases h2
    · rw [hn f hf] at h1; cases h1
  unfold encFieldsTo
  rw [if_neg hb, ← forall₂_length h]
  constructor
  · intro hl
    rw [if_pos (fun h => hl h.symm)]
    exact failsWith_fail _
  · intro hl i e hf
    rw [if_neg (by simp [hl])]
    exact firstFailing_byOrder h hf

end SV
