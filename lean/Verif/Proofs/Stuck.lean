import Verif.Spec.Stuck
import Verif.Proofs.Bottomless
import Verif.Proofs.EncodeRules
import Verif.Proofs.EncCallsRules
/-
Proofs for the rules of how encoding ends (C86).
-/
namespace SV

variable {Id Γ : Type}

/-- The encoder ends like that. -/
def RunsT (e : EncT Id) (o : Ending) : Prop := ∀ out, ending (e out) = o

theorem runs_unique {e : EncT Id} {o o' : Ending} (h : RunsT e o) (h' : RunsT e o') : o = o' := (h []).symm.trans (h' [])

theorem runs_write (bs : List UInt8) : RunsT (Id := Id) (.ret (.write bs)) .ok := fun _ => rfl
theorem runs_done : RunsT (Id := Id) (.ret fun out => (.ok (), out)) .ok := fun _ => rfl
theorem runs_fail (k : EKind Id) : RunsT (.ret (.fail k)) .fails := fun _ => rfl
theorem runs_error (e : EErr Id) : RunsT (.ret fun out => (.error e, out)) .fails := fun _ => rfl

theorem runs_mapErr {f : EErr Id → EErr Id} {a : EncT Id} {o : Ending} (h : RunsT a o) : RunsT (.mapErr f a) o := by
  intro out
  rw [← h out]
  unfold EncT.mapErr
  rcases a out with _ | ⟨_ | _, _⟩ <;> rfl

theorem runs_seq {a b : EncT Id} {o : Ending} (ha : RunsT a .ok) (hb : RunsT b o) : RunsT (.seq a b) o := by
  intro out
  have := ha out
  unfold EncT.seq
  generalize a out = r at this ⊢
  rcases r with _ | ⟨_ | _, o'⟩
  · cases this
  · cases this
  · exact hb o'

theorem runs_seq_left {a b : EncT Id} {o : Ending} (ha : RunsT a o) (ho : o ≠ .ok) : RunsT (.seq a b) o := by
  intro out
  have := ha out
  unfold EncT.seq
  generalize a out = r at this ⊢
  rcases r with _ | ⟨_ | _, o'⟩
  · exact this
  · exact this
  · exact absurd this.symm ho

theorem runs_after_none {A : Type} {f : A → EncT Id} : RunsT (.after none f) .never := fun _ => rfl

theorem runs_ok_or (o : Ending) : o = .ok ∨ o ≠ .ok := by cases o <;> simp
theorem runs_fails_or (o : Ending) : o = .fails ∨ o ≠ .fails := by cases o <;> simp

/-! ### Looking through wrappers -/

theorem findSingleTN_flag_or (res : Table Id) : ∀ n t b p, findSingleTN res n t b = some p → (p.2 = true ↔ b = true ∨ ∃ w, WrapsIn res t w) := by
  intro n
  induction n with
  | zero => intro t b p h; cases h
  | succ n ih =>
    intro t b p h
    rcases findSingleTN_step res t with ⟨u, hw, he⟩ | ⟨hw, he⟩
    · rw [he] at h
      exact ⟨fun _ => .inr ⟨u, hw⟩, fun _ => (ih u true p h).2 (.inl rfl)⟩
    · rw [he] at h; cases h
      exact ⟨.inl, fun h => h.elim _root_.id (fun ⟨w, h⟩ => absurd h (hw w))⟩

theorem findSingleT_end {res : Table Id} {t : Id} {p} (h : findSingleT res t = some p) : WrapsEnd res t p.1 ∧ (p.2 = true ↔ ∃ w, WrapsIn res t w) := by
  obtain ⟨n, h⟩ := findSingleT_some.1 h
  refine ⟨findSingleTN_closed (Q := fun a => Relation.ReflTransGen (WrapsIn res) t a) (fun a b h hw => .tail h hw) n t false p h .refl, ?_⟩
  simpa using findSingleTN_flag_or res n t false p h

theorem wrapsEnd_unique {res : Table Id} {t u w : Id} (h : WrapsEnd res t u) (h' : WrapsEnd res t w) : u = w := by
  rcases Relation.ReflTransGen.total_of_right_unique (r := WrapsIn res) (fun _ _ _ h h' => wrapsIn_unique h h') h.1 h'.1 with hr | hr
  · rcases Relation.ReflTransGen.cases_head hr with he | ⟨x, hx, -⟩
    · exact he
    · exact absurd hx (h.2 x)
  · rcases Relation.ReflTransGen.cases_head hr with he | ⟨x, hx, -⟩
    · exact he.symm
    · exact absurd hx (h'.2 x)

theorem wrapsEnd_bottomless {res : Table Id} {t u : Id} (h : WrapsEnd res t u) : ¬ Bottomless res t := by
  obtain ⟨h, hu⟩ := h
  intro hb
  have : Bottomless res u := by
    clear hu
    induction h with
    | refl => exact hb
    | tail _ hw ih =>
      obtain ⟨x, hx, hb⟩ := bottomless_next ih
      rwa [wrapsIn_unique hw hx]
  obtain ⟨x, hx, -⟩ := bottomless_next this
  exact hu x hx

theorem wrapsEnd_find {res : Table Id} {t u : Id} (h : WrapsEnd res t u) : ∃ b, findSingleT res t = some (u, b) := by
  cases hf : findSingleT res t with
  | none => exact absurd (findSingleT_none.1 hf) (wrapsEnd_bottomless h)
  | some p =>
    refine ⟨p.2, ?_⟩
    rw [wrapsEnd_unique h (findSingleT_end hf).1]

theorem wraps_find {res : Table Id} {t u w : Id} (h : WrapsIn res t w) (hu : WrapsEnd res t u) : findSingleT res t = some (u, true) := by
  obtain ⟨b, hf⟩ := wrapsEnd_find hu
  have := (findSingleT_end hf).2.2 ⟨w, h⟩
  rw [hf]
  simp only at this
  rw [this]

theorem not_wraps_find {res : Table Id} {t : Id} (h : ∀ w, ¬ WrapsIn res t w) : findSingleT res t = some (t, false) := by
  obtain ⟨b, hf⟩ := wrapsEnd_find (res := res) (t := t) ⟨.refl, h⟩
  cases b with
  | false => exact hf
  | true =>
    obtain ⟨w, hw⟩ := (findSingleT_end hf).2.1 rfl
    exact absurd hw (h w)

theorem bareIn_unique {res : Table Id} {t u w : Id} (h : BareIn res t u) (h' : BareIn res t w) : u = w := by
  cases h with
  | struct h => cases h' with
    | struct h' => rw [h] at h'; simpa using h'
    | tuple h' => rw [h] at h'; simp at h'
  | tuple h => cases h' with
    | struct h' => rw [h] at h'; simp at h'
    | tuple h' => rw [h] at h'; simpa using h'

theorem skipTN_bare (res : Table Id) (t : Id) :
    (∃ u, BareIn res t u ∧ ∀ n, skipTN res (n + 1) t = skipTN res n u) ∨ ((∀ u, ¬ BareIn res t u) ∧ ∀ n, skipTN res (n + 1) t = some t) := by
  by_cases h1 : ∃ u, res t = some (.tuple [u])
  · obtain ⟨u, h⟩ := h1
    exact .inl ⟨u, .tuple h, fun n => by rw [skipTN, h]⟩
  · by_cases h2 : ∃ u, res t = some (.composite [⟨none, u⟩])
    · obtain ⟨u, h⟩ := h2
      exact .inl ⟨u, .struct h, fun n => by rw [skipTN, h]⟩
    · refine .inr ⟨?_, fun n => ?_⟩
      · rintro u (h | h)
        · exact h2 ⟨_, h⟩
        · exact h1 ⟨_, h⟩
      · rw [skipTN]
        split
        · next h => exact absurd ⟨_, h⟩ h2
        · next h => exact absurd ⟨_, h⟩ h1
        · rfl

theorem bareChain_next {res : Table Id} {t : Id} (h : BareChain res t) : ∃ u, BareIn res t u ∧ BareChain res u := by
  obtain ⟨f, rfl, hf⟩ := h
  exact ⟨f 1, hf 0, fun n => f (n + 1), rfl, fun n => hf (n + 1)⟩

theorem skipT_never {res : Table Id} {t : Id} : skipT res t = none ↔ BareChain res t := by
  rw [skipT, limit_none]
  constructor
  · intro h
    refine chain_of (P := fun t => ∀ n, skipTN res n t = none) (fun t ht => ?_) h
    rcases skipTN_bare res t with ⟨u, hw, he⟩ | ⟨-, he⟩
    · exact ⟨u, hw, fun n => by rw [← he n]; exact ht _⟩
    · have := ht 1; rw [he] at this; cases this
  · intro h n
    induction n generalizing t with
    | zero => rfl
    | succ n ih =>
      obtain ⟨u, hu, hb⟩ := bareChain_next h
      rcases skipTN_bare res t with ⟨u', hw, he⟩ | ⟨hw, -⟩
      · rw [he, ← bareIn_unique hu hw]; exact ih hb
      · exact absurd hu (hw u)

theorem skipT_end {res : Table Id} {t w : Id} (h : skipT res t = some w) : BareEnd res t w := by
  obtain ⟨n, hn⟩ := skipT_some.1 h
  clear h
  induction n generalizing t with
  | zero => cases hn
  | succ n ih =>
    rcases skipTN_bare res t with ⟨u, hw, he⟩ | ⟨hw, he⟩
    · rw [he] at hn
      obtain ⟨h1, h2⟩ := ih hn
      exact ⟨.head hw h1, h2⟩
    · rw [he] at hn; cases hn; exact ⟨.refl, hw⟩

theorem bareEnd_skip {res : Table Id} {t w : Id} (h : BareEnd res t w) : skipT res t = some w := by
  have hn : ¬ BareChain res t := by
    obtain ⟨h, hu⟩ := h
    intro hb
    have : BareChain res w := by
      clear hu
      induction h with
      | refl => exact hb
      | tail _ hw ih =>
        obtain ⟨x, hx, hb⟩ := bareChain_next ih
        rwa [bareIn_unique hw hx]
    obtain ⟨x, hx, -⟩ := bareChain_next this
    exact hu x hx
  cases hs : skipT res t with
  | none => exact absurd (skipT_never.1 hs) hn
  | some u =>
    have h' := skipT_end hs
    congr 1
    rcases Relation.ReflTransGen.total_of_right_unique (r := BareIn res) (fun _ _ _ h h' => bareIn_unique h h') h.1 h'.1 with hr | hr
    · rcases Relation.ReflTransGen.cases_head hr with he | ⟨x, hx, -⟩
      · exact he.symm
      · exact absurd hx (h.2 x)
    · rcases Relation.ReflTransGen.cases_head hr with he | ⟨x, hx, -⟩
      · exact he
      · exact absurd hx (h'.2 x)

theorem bareChain_struct {res : Table Id} {t : Id} (h : BareChain res t) : StructIn res t := by
  obtain ⟨u, hu, -⟩ := bareChain_next h
  cases hu with
  | struct h => exact .inl ⟨_, h⟩
  | tuple h => exact .inr ⟨_, h⟩

/-! ### Children -/

/-- The child stands for the value. -/
abbrev StandsT (res : Table Id) (cc : Bool) (k : ChildT Id) (v : Value Γ) : Prop := k.enc = v.encodeT res cc ∧ k.bit = bitOf v

/-- A value with a name. -/
noncomputable def childNamedT (res : Table Id) (cc : Bool) (p : Str × Value Γ) : ChildT Id := ⟨some p.1, p.2.encodeT res cc, bitOf p.2⟩
/-- A value. -/
noncomputable def childOfT (res : Table Id) (cc : Bool) (v : Value Γ) : ChildT Id := ⟨none, v.encodeT res cc, bitOf v⟩

theorem encUnnamedT_eq (res : Table Id) (cc : Bool) (vs : List (Value Γ)) : encUnnamedT res cc vs = vs.map (childOfT res cc) := by
  induction vs with
  | nil => rfl
  | cons v vs ih => rw [encUnnamedT, ih]; rfl
theorem encNamedT_eq (res : Table Id) (cc : Bool) (l : List (Str × Value Γ)) : encNamedT res cc l = l.map (childNamedT res cc) := by
  induction l with
  | nil => rfl
  | cons v vs ih => obtain ⟨k, v⟩ := v; rw [encNamedT, ih]; rfl

theorem stands_childT (res : Table Id) (cc : Bool) (c : Composite Γ) : List.Forall₂ (StandsT res cc) (c.encChildrenT res cc) c.vals := by
  cases c with
  | named l =>
    rw [Composite.encChildrenT, encNamedT_eq]
    show List.Forall₂ _ _ (l.map _)
    induction l with
    | nil => exact .nil
    | cons p l ih => exact .cons ⟨rfl, rfl⟩ ih
  | unnamed vs =>
    rw [Composite.encChildrenT, encUnnamedT_eq]
    show List.Forall₂ _ _ vs
    induction vs with
    | nil => exact .nil
    | cons p l ih => exact .cons ⟨rfl, rfl⟩ ih

theorem runs_items {res : Table Id} {cc : Bool} {u : Id} {nm : Bool} {cs : List (ChildT Id)} {vs : List (Value Γ)} (h : List.Forall₂ (StandsT res cc) cs vs) :
    ∀ {o} k, TriesO res cc (List.replicate vs.length u) vs o → RunsT (encItemsT u nm k cs) o := by
  induction h with
  | nil => intro o k h; cases h; exact runs_done
  | cons h1 _ ih =>
    intro o k h
    rw [List.length_cons, List.replicate_succ] at h
    cases h with
    | stop h ho => exact runs_seq_left (runs_mapErr (by rw [h1.1]; exact h)) ho
    | next h2 h3 => exact runs_seq (runs_mapErr (by rw [h1.1]; exact h2)) (ih _ h3)

theorem runs_byOrder {res : Table Id} {cc : Bool} {cs : List (ChildT Id)} {vs : List (Value Γ)} (h : List.Forall₂ (StandsT res cc) cs vs) :
    ∀ {fs : List (Field Id)} {o} k, TriesO res cc (fs.map (fun f => f.id)) vs o → RunsT (encByOrderT k cs fs) o := by
  induction h with
  | nil =>
    intro fs o k h
    cases fs with
    | nil => cases h; exact runs_done
    | cons f fs => cases h
  | cons h1 _ ih =>
    intro fs o k h
    cases fs with
    | nil => cases h
    | cons f fs =>
      rw [List.map_cons] at h
      cases h with
      | stop h ho => exact runs_seq_left (runs_mapErr (by rw [h1.1]; exact h)) ho
      | next h2 h3 => exact runs_seq (runs_mapErr (by rw [h1.1]; exact h2)) (ih _ h3)

theorem find_lastT {res : Table Id} {cc : Bool} {l : List (Str × Value Γ)} {n : Str} {v : Value Γ} (h : LastNamed l n v) :
    (l.map (childNamedT res cc)).reverse.find? (fun c => c.name.getD [] == n) = some (childNamedT res cc (n, v)) := by
  obtain ⟨l1, l3, rfl, h⟩ := h
  rw [List.find?_eq_some_iff_append]
  refine ⟨by simp [childNamedT], (l3.map (childNamedT res cc)).reverse, (l1.map (childNamedT res cc)).reverse, by simp, ?_⟩
  intro a ha
  obtain ⟨⟨m, w⟩, hm, rfl⟩ := List.mem_map.1 (List.mem_reverse.1 ha)
  simp only [childNamedT, Option.getD_some, Bool.not_eq_true', beq_eq_false_iff_ne, ne_eq]
  rintro rfl
  exact h w hm

theorem find_noneT {res : Table Id} {cc : Bool} {l : List (Str × Value Γ)} {n : Str} (h : ∀ v, (n, v) ∉ l) :
    (l.map (childNamedT res cc)).reverse.find? (fun c => c.name.getD [] == n) = none := by
  rw [List.find?_eq_none]
  intro a ha
  obtain ⟨⟨m, w⟩, hm, rfl⟩ := List.mem_map.1 (List.mem_reverse.1 ha)
  simp only [childNamedT, Option.getD_some, beq_iff_eq]
  rintro rfl
  exact h w hm

theorem runs_byName {res : Table Id} {cc : Bool} {l : List (Str × Value Γ)} {fs : List (Field Id)} {o : Ending} (h : NameTriesO res cc l fs o) :
    RunsT (encByNameT (l.map (childNamedT res cc)) fs) o := by
  induction h with
  | nil => exact runs_done
  | missing h =>
    rw [encByNameT, find_noneT h]
    exact runs_fail _
  | stop h1 h2 ho =>
    rw [encByNameT, find_lastT h1]
    exact runs_seq_left (runs_mapErr h2) ho
  | next h1 h2 _ ih =>
    rw [encByNameT, find_lastT h1]
    exact runs_seq (runs_mapErr h2) ih

theorem runs_fieldsTo {res : Table Id} {cc : Bool} {c : Composite Γ} {fs : List (Field Id)} {o : Ending} (h : FieldTriesO res cc c fs o) :
    RunsT (encFieldsToT (c.encChildrenT res cc) fs) o := by
  have order : ∀ {c : Composite Γ}, ((∃ vs, c = .unnamed vs) ∨ c = .named [] ∨ ∀ f ∈ fs, f.name = none) →
      (fs.any (fun f => f.name.isSome) && (c.encChildrenT res cc).any (fun c => c.name.isSome)) = false := by
    intro c h
    rw [Bool.and_eq_false_iff]
    rcases h with ⟨vs, rfl⟩ | rfl | h
    · right
      rw [Composite.encChildrenT, encUnnamedT_eq, List.any_map]
      simp [childOfT]
    · right
      rw [Composite.encChildrenT, encNamedT_eq]; rfl
    · left
      simp only [List.any_eq_false, Bool.not_eq_true]
      intro f hf
      rw [h f hf]; rfl
  unfold encFieldsToT
  cases h with
  | @byName l _ _ h1 h2 h3 =>
    rw [Composite.encChildrenT, encNamedT_eq]
    rw [if_pos]
    · exact runs_byName h3
    · obtain ⟨f, hf, hn⟩ := h2
      obtain ⟨p, l, rfl⟩ := List.exists_cons_of_ne_nil h1
      simp only [Bool.and_eq_true, List.any_eq_true]
      exact ⟨⟨f, hf, by cases hx : f.name with | none => exact (hn hx).elim | some _ => rfl⟩, childNamedT res cc p, by simp, rfl⟩
  | byOrder h1 h2 h3 =>
    rw [order h1]
    simp only [Bool.false_eq_true, if_false]
    have hl := (stands_childT res cc c).length_eq
    rw [if_neg (by rw [hl, h2]; simp)]
    exact runs_byOrder (stands_childT res cc c) 0 h3
  | length h1 h2 =>
    rw [order h1]
    simp only [Bool.false_eq_true, if_false]
    have hl := (stands_childT res cc c).length_eq
    rw [if_pos (by rw [hl]; exact fun h => h2 h.symm)]
    exact runs_fail _

theorem childT_single {res : Table Id} {cc : Bool} {c : Composite Γ} {v : Value Γ} (h : c.vals = [v]) : ∃ k, c.encChildrenT res cc = [k] ∧ k.enc = v.encodeT res cc := by
  have hs := stands_childT res cc c
  rw [h] at hs
  generalize c.encChildrenT res cc = cs at hs
  cases hs with
  | cons h1 h2 => cases h2; exact ⟨_, rfl, h1.1⟩

theorem childT_not_single {res : Table Id} {cc : Bool} {c : Composite Γ} (h : c.vals.length ≠ 1) (k : ChildT Id) : c.encChildrenT res cc ≠ [k] := by
  intro hk
  have hs := (stands_childT res cc c).length_eq
  rw [hk] at hs
  exact h hs.symm

theorem encBoolsT_iff {res : Table Id} {cc : Bool} {cs : List (ChildT Id)} {vs : List (Value Γ)} (h : List.Forall₂ (StandsT res cc) cs vs) {k : Nat} {b : List Bool} :
    encBoolsT k cs = .ok b ↔ List.Forall₂ IsBit vs b := by
  induction h generalizing k b with
  | nil =>
    rw [encBoolsT]
    constructor
    · intro h; cases h; exact .nil
    · intro h; cases h; rfl
  | @cons c v cs vs h h2 ih =>
    rw [encBoolsT]
    split
    · rename_i hb
      constructor
      · intro h'; cases h'
      · intro h'
        cases h' with
        | cons h3 h4 => rw [h.2, bitOf_iff.2 h3] at hb; cases hb
    · rename_i b0 hb
      rw [h.2] at hb
      split
      · rename_i e he
        constructor
        · intro h'; cases h'
        · intro h'
          cases h' with
          | cons h3 h4 => rw [ih.2 h4] at he; cases he
      · rename_i bs he
        constructor
        · intro h'; cases h'; exact .cons (bitOf_iff.1 hb) (ih.1 he)
        · intro h'
          cases h' with
          | cons h3 h4 =>
            rw [bitOf_iff.2 h3] at hb; cases hb
            rw [ih.2 h4] at he; cases he; rfl

/-! ### One attempt -/

theorem asTypeT_struct {res : Table Id} {t : Id} (h : StructIn res t) (cs : List (ChildT Id)) : doEncodeCompositeT res cs t = encCompositeAsTypeT res cs t := by
  unfold doEncodeCompositeT
  rcases h with ⟨fs, h⟩ | ⟨ts, h⟩ <;> rw [h]

theorem runs_attempt {res : Table Id} {cc : Bool} {c : Composite Γ} {t : Id} {o : Ending} (h : AttemptO res cc c t o) :
    RunsT (doEncodeCompositeT res (c.encChildrenT res cc) t) o := by
  have hst := stands_childT res cc c
  have hl := hst.length_eq
  cases h with
  | endless h =>
    rw [asTypeT_struct (bareChain_struct h)]
    unfold encCompositeAsTypeT
    rw [skipT_never.2 h]
    exact runs_after_none
  | struct h1 h2 h3 h4 h5 =>
    rw [asTypeT_struct h1]
    unfold encCompositeAsTypeT
    rw [bareEnd_skip h2, afterT_some, h3]
    simp only
    split
    · rename_i k hk hc
      cases c with
      | named l =>
        exfalso
        rw [Composite.encChildrenT, encNamedT_eq] at hk hc
        match l, hc with
        | [p], hc => simp [childNamedT] at hk
      | unnamed vs =>
        exfalso
        rw [Composite.encChildrenT, encUnnamedT_eq] at hc
        match vs, hc, h4 with
        | [v], _, h4 => exact h4 v rfl
    · exact runs_fieldsTo h5
  | inStruct h1 h2 h3 h4 h5 =>
    subst h4
    rw [asTypeT_struct h1]
    unfold encCompositeAsTypeT
    rw [bareEnd_skip h2, afterT_some, h3, Composite.encChildrenT, encUnnamedT_eq]
    exact h5
  | @tuple w ts _ h1 h2 h3 h4 h5 h6 =>
    rw [asTypeT_struct h1]
    unfold encCompositeAsTypeT
    rw [bareEnd_skip h2, afterT_some, h3]
    simp only
    split
    · rename_i k hk; exact (childT_not_single h4 k hk).elim
    · refine runs_fieldsTo (.byOrder (.inr (.inr ?_)) (by simpa using h5) (by simpa [List.map_map, Function.comp_def] using h6))
      intro f hf
      obtain ⟨w, -, rfl⟩ := List.mem_map.1 hf
      rfl
  | @tupleLength w ts h1 h2 h3 h4 h5 =>
    rw [asTypeT_struct h1]
    unfold encCompositeAsTypeT
    rw [bareEnd_skip h2, afterT_some, h3]
    simp only
    split
    · rename_i k hk; exact (childT_not_single h4 k hk).elim
    · refine runs_fieldsTo (.length (.inr (.inr ?_)) (by simpa using h5))
      intro f hf
      obtain ⟨w, -, rfl⟩ := List.mem_map.1 hf
      rfl
  | inTuple h1 h2 h3 h4 h5 =>
    obtain ⟨k, hk, he⟩ := childT_single (res := res) (cc := cc) h4
    rw [asTypeT_struct h1, hk]
    unfold encCompositeAsTypeT
    rw [bareEnd_skip h2, afterT_some, h3]
    simp only [he]
    exact h5
  | @inWrapper w d _ _ h1 h2 h3 h4 h5 h6 =>
    obtain ⟨k, hk, he⟩ := childT_single (res := res) (cc := cc) h5
    rw [asTypeT_struct h1, hk]
    unfold encCompositeAsTypeT
    rw [bareEnd_skip h2, afterT_some, h3]
    cases d with
    | composite fs => exact (h4 (.inl ⟨fs, h3⟩)).elim
    | tuple ts => exact (h4 (.inr ⟨ts, h3⟩)).elim
    | _ => simp only [he]; exact h6
  | @noWrapper w d h1 h2 h3 h4 h5 =>
    have hn := childT_not_single (res := res) (cc := cc) h5
    rw [asTypeT_struct h1]
    generalize c.encChildrenT res cc = cs at hn
    unfold encCompositeAsTypeT
    rw [bareEnd_skip h2, afterT_some, h3]
    cases d with
    | composite fs => exact (h4 (.inl ⟨fs, h3⟩)).elim
    | tuple ts => exact (h4 (.inr ⟨ts, h3⟩)).elim
    | _ =>
      match cs, hn with
      | [], _ => exact runs_fail _
      | [k], hn => exact (hn k rfl).elim
      | _ :: _ :: _, _ => exact runs_fail _
  | missing h1 h2 h3 =>
    rw [asTypeT_struct h1]
    unfold encCompositeAsTypeT
    rw [bareEnd_skip h2, afterT_some, h3]
    exact runs_fail _
  | sequence h1 h2 =>
    unfold doEncodeCompositeT
    rw [h1]
    exact runs_seq (runs_write _) (runs_items hst 0 h2)
  | @array u k _ h1 h2 h3 =>
    unfold doEncodeCompositeT
    rw [h1]
    simp only
    rw [if_neg (by rw [hl, h2]; simp)]
    rw [← h2] at h3
    exact runs_items hst 0 h3
  | arrayLength h1 h2 =>
    unfold doEncodeCompositeT
    rw [h1]
    simp only
    rw [if_pos (by rw [hl]; exact h2)]
    exact runs_fail _
  | @bits s o b h1 h2 =>
    unfold doEncodeCompositeT
    rw [h1]
    simp only
    rw [(encBoolsT_iff hst).2 h2]
    exact runs_write _
  | @noBits s o h1 h2 =>
    unfold doEncodeCompositeT
    rw [h1]
    simp only
    cases hb : encBoolsT 0 (c.encChildrenT res cc) with
    | ok b => exact (h2 b ((encBoolsT_iff hst).1 hb)).elim
    | error e => exact runs_error e
  | other h1 h2 h3 h4 h5 h6 =>
    obtain ⟨k, hk, he⟩ := childT_single (res := res) (cc := cc) h5
    rw [hk]
    unfold doEncodeCompositeT
    split <;> rename_i ht
    · exact (h1 (.inl ⟨_, ht⟩)).elim
    · exact (h1 (.inr ⟨_, ht⟩)).elim
    · exact (h2 _ ht).elim
    · exact (h3 _ _ ht).elim
    · exact (h4 _ _ ht).elim
    · simp only [he]; exact h6
  | otherLength h1 h2 h3 h4 h5 =>
    have hn := childT_not_single (res := res) (cc := cc) h5
    generalize c.encChildrenT res cc = cs at hn
    unfold doEncodeCompositeT
    split <;> rename_i ht
    · exact (h1 (.inl ⟨_, ht⟩)).elim
    · exact (h1 (.inr ⟨_, ht⟩)).elim
    · exact (h2 _ ht).elim
    · exact (h3 _ _ ht).elim
    · exact (h4 _ _ ht).elim
    · match cs, hn with
      | [], _ => exact runs_fail _
      | [k], hn => exact (hn k rfl).elim
      | _ :: _ :: _, _ => exact runs_fail _

/-! ### All attempts -/

theorem runs_last {res : Table Id} {cc : Bool} {c : Composite Γ} {v : Value Γ} (h : c.vals = [v]) {t : Id} {o : Ending} (ht : EndsIn res cc v t o) (e : EErr Id) :
    RunsT (encLastT (c.encChildrenT res cc) t e) o := by
  obtain ⟨k, hk, he⟩ := childT_single (res := res) (cc := cc) h
  rw [hk]
  intro out
  have := ht []
  unfold encLastT
  simp only [he]
  rw [← this]
  rcases v.encodeT res cc t [] with _ | ⟨_ | _, _⟩ <;> rfl

theorem runs_last_not {res : Table Id} {cc : Bool} {c : Composite Γ} (h : c.vals.length ≠ 1) (t : Id) (e : EErr Id) :
    RunsT (encLastT (c.encChildrenT res cc) t e) .fails := by
  have hn := childT_not_single (res := res) (cc := cc) h
  generalize c.encChildrenT res cc = cs at hn
  intro out
  match cs, hn with
  | [], _ => rfl
  | [k], hn => exact (hn k rfl).elim
  | _ :: _ :: _, _ => rfl

theorem ending_fails {E A : Type} {r : Option (Except E Unit × A)} (h : ending r = .fails) : ∃ e o, r = some (.error e, o) := by
  rcases r with _ | ⟨e | _, o⟩
  · cases h
  · exact ⟨e, o, rfl⟩
  · cases h

theorem runs_one {res : Table Id} {cs : List (ChildT Id)} {t : Id} {o : Ending} (h : RunsT (doEncodeCompositeT res cs t) .fails) (hs : ∀ w, ¬ WrapsIn res t w)
    (hl : ∀ e, RunsT (encLastT cs t e) o) : RunsT (encCompositeT res cs t) o := by
  obtain ⟨e, o', h⟩ := ending_fails (h [])
  intro out
  unfold encCompositeT
  rw [h, not_wraps_find hs]
  exact hl e out

theorem runs_two {res : Table Id} {cs : List (ChildT Id)} {t u w : Id} {o : Ending} (h : RunsT (doEncodeCompositeT res cs t) .fails) (hs : WrapsIn res t w) (hu : WrapsEnd res t u)
    (h2 : RunsT (doEncodeCompositeT res cs u) .fails) (hl : ∀ e, RunsT (encLastT cs u e) o) : RunsT (encCompositeT res cs t) o := by
  obtain ⟨e, o', h⟩ := ending_fails (h [])
  obtain ⟨e2, o2, h2⟩ := ending_fails (h2 [])
  intro out
  unfold encCompositeT
  rw [h, wraps_find hs hu]
  simp only
  rw [h2]
  exact hl e out

theorem runs_composite {res : Table Id} {cc : Bool} {c : Composite Γ} {t : Id} {o : Ending} (h : CompositeO res cc c t o) : RunsT (encCompositeT res (c.encChildrenT res cc) t) o := by
  cases h with
  | direct h ho =>
    have := runs_attempt h []
    intro out
    unfold encCompositeT
    rcases hd : doEncodeCompositeT res (c.encChildrenT res cc) t [] with _ | ⟨e | _, o'⟩
    · rw [hd] at this; exact this
    · rw [hd] at this; exact absurd this.symm ho
    · rw [hd] at this; exact this
  | endless h hb =>
    obtain ⟨e, o', h⟩ := ending_fails (runs_attempt h [])
    intro out
    unfold encCompositeT
    rw [h, findSingleT_none.2 hb]
    rfl
  | inner h1 h2 h3 h4 ho =>
    obtain ⟨e, o', h⟩ := ending_fails (runs_attempt h1 [])
    have := runs_attempt h4 []
    intro out
    unfold encCompositeT
    rw [h, wraps_find h2 h3]
    simp only
    rcases hd : doEncodeCompositeT res (c.encChildrenT res cc) _ [] with _ | ⟨e | _, o'⟩
    · rw [hd] at this; exact this
    · rw [hd] at this; exact absurd this.symm ho
    · rw [hd] at this; exact this
  | innerAlone h1 h2 h3 h4 h5 h6 => exact runs_two (runs_attempt h1) h2 h3 (runs_attempt h4) (fun e => runs_last h5 h6 e)
  | innerFails h1 h2 h3 h4 h5 => exact runs_two (runs_attempt h1) h2 h3 (runs_attempt h4) (fun e => runs_last_not h5 _ e)
  | alone h1 h2 h3 h4 => exact runs_one (runs_attempt h1) h2 (fun e => runs_last h3 h4 e)
  | fails h1 h2 h3 => exact runs_one (runs_attempt h1) h2 (fun e => runs_last_not h3 _ e)

theorem runs_variant {res : Table Id} {cc : Bool} {s : Str} {c : Composite Γ} {t : Id} {o : Ending} (h : VariantO res cc s c t o) :
    RunsT (encVariantT res s (c.encChildrenT res cc) t) o := by
  unfold encVariantT
  cases h with
  | endless h => rw [findSingleT_none.2 h]; exact runs_after_none
  | @variant u before d after o h1 h2 h3 h4 h5 =>
    obtain ⟨b, hf⟩ := wrapsEnd_find h1
    rw [hf, afterT_some, h2]
    simp only
    have : (before ++ d :: after).find? (fun e => e.name == s) = some d := by
      rw [List.find?_append, List.find?_eq_none.2 (by simpa using h4)]
      simp [h3]
    rw [this]
    exact runs_seq (runs_write _) (runs_fieldsTo h5)
  | @noVariant u h1 h2 =>
    obtain ⟨b, hf⟩ := wrapsEnd_find h1
    rw [hf, afterT_some]
    simp only
    split
    · rename_i ds hd
      have : ds.find? (fun e => e.name == s) = none := List.find?_eq_none.2 (by simpa using h2 ds hd)
      rw [this]
      exact runs_fail _
    · exact runs_fail _
    · exact runs_fail _

/-! ### There is always a rule -/

theorem triesO_exists {res : Table Id} {cc : Bool} : ∀ (ts : List Id) (vs : List (Value Γ)), (∀ v ∈ vs, ∀ t, ∃ o, EndsIn res cc v t o) → ts.length = vs.length → ∃ o, TriesO res cc ts vs o
  | [], [], _, _ => ⟨_, .nil⟩
  | [], _ :: _, _, h => by simp at h
  | _ :: _, [], _, h => by simp at h
  | t :: ts, v :: vs, hv, h => by
    obtain ⟨o, h1⟩ := hv v (by simp) t
    obtain ⟨o', h2⟩ := triesO_exists ts vs (fun w hw => hv w (by simp [hw])) (by simpa using h)
    rcases runs_ok_or o with rfl | ho
    · exact ⟨_, .next h1 h2⟩
    · exact ⟨_, .stop h1 ho⟩

theorem lastNamedT_mem {l : List (Str × Value Γ)} {n : Str} {v : Value Γ} (h : LastNamed l n v) : (n, v) ∈ l := by
  obtain ⟨a, b, rfl, -⟩ := h; simp

theorem nameTriesO_exists {res : Table Id} {cc : Bool} {l : List (Str × Value Γ)} (hv : ∀ p ∈ l, ∀ t, ∃ o, EndsIn res cc p.2 t o) : ∀ (fs : List (Field Id)), ∃ o, NameTriesO res cc l fs o
  | [] => ⟨_, .nil⟩
  | f :: fs => by
    rcases lastNamed_or l (f.name.getD []) with ⟨v, h⟩ | h
    · obtain ⟨o, h1⟩ := hv _ (lastNamedT_mem h) f.id
      obtain ⟨o', h2⟩ := nameTriesO_exists hv fs
      rcases runs_ok_or o with rfl | ho
      · exact ⟨_, .next h h1 h2⟩
      · exact ⟨_, .stop h h1 ho⟩
    · exact ⟨_, .missing h⟩

theorem fieldTriesO_exists {res : Table Id} {cc : Bool} {c : Composite Γ} (hv : ∀ v ∈ c.vals, ∀ t, ∃ o, EndsIn res cc v t o) (fs : List (Field Id)) : ∃ o, FieldTriesO res cc c fs o := by
  have order : ((∃ vs, c = .unnamed vs) ∨ c = .named [] ∨ ∀ f ∈ fs, f.name = none) → ∃ o, FieldTriesO res cc c fs o := by
    intro h
    by_cases hl : c.vals.length = fs.length
    · obtain ⟨o, h1⟩ := triesO_exists (fs.map (fun f => f.id)) c.vals hv (by simp [hl])
      exact ⟨_, .byOrder h hl h1⟩
    · exact ⟨_, .length h hl⟩
  cases c with
  | unnamed vs => exact order (.inl ⟨vs, rfl⟩)
  | named l =>
    by_cases h0 : l = []
    · subst h0; exact order (.inr (.inl rfl))
    · by_cases hf : ∀ f ∈ fs, f.name = none
      · exact order (.inr (.inr hf))
      · obtain ⟨o, h⟩ := nameTriesO_exists (l := l) (fun p hp => hv p.2 (List.mem_map_of_mem hp)) fs
        refine ⟨o, .byName h0 ?_ h⟩
        apply Classical.byContradiction
        intro hn
        refine hf (fun f hf' => Classical.byContradiction fun hx => hn ⟨f, hf', hx⟩)

theorem attemptO_exists {res : Table Id} {cc : Bool} {c : Composite Γ} (hv : ∀ v ∈ c.vals, ∀ t, ∃ o, EndsIn res cc v t o) (t : Id) : ∃ o, AttemptO res cc c t o := by
  have one : ∀ {v} (t : Id), c.vals = [v] → ∃ o, EndsIn res cc v t o := fun t h => hv _ (by simp [h]) t
  by_cases hs : StructIn res t
  · cases hu : skipT res t with
    | none => exact ⟨_, .endless (skipT_never.1 hu)⟩
    | some w =>
    have hu := skipT_end hu
    by_cases hw : StructIn res w
    · rcases hw with ⟨fs, hw⟩ | ⟨ts, hw⟩
      · by_cases h1 : ∃ v, c = .unnamed [v]
        · obtain ⟨v, hv⟩ := h1
          obtain ⟨o, h⟩ := one (v := v) w (by rw [hv]; rfl)
          exact ⟨_, .inStruct hs hu hw hv h⟩
        · obtain ⟨o, h⟩ := fieldTriesO_exists hv fs
          exact ⟨_, .struct hs hu hw (fun v hv => h1 ⟨v, hv⟩) h⟩
      · rcases vals_single_or c with ⟨v, h1⟩ | h1
        · obtain ⟨o, h⟩ := one w h1
          exact ⟨_, .inTuple hs hu hw h1 h⟩
        · by_cases hl : c.vals.length = ts.length
          · obtain ⟨o, h⟩ := triesO_exists ts c.vals hv hl.symm
            exact ⟨_, .tuple hs hu hw h1 hl h⟩
          · exact ⟨_, .tupleLength hs hu hw h1 hl⟩
    · cases hd : res w with
      | none => exact ⟨_, .missing hs hu hd⟩
      | some d =>
        rcases vals_single_or c with ⟨v, h1⟩ | h1
        · obtain ⟨o, h⟩ := one w h1
          exact ⟨_, .inWrapper hs hu hd hw h1 h⟩
        · exact ⟨_, .noWrapper hs hu hd hw h1⟩
  · by_cases h1 : ∃ u, res t = some (.sequence u)
    · obtain ⟨u, h1⟩ := h1
      obtain ⟨o, h⟩ := triesO_exists (List.replicate c.vals.length u) c.vals hv (by simp)
      exact ⟨_, .sequence h1 h⟩
    by_cases h2 : ∃ u k, res t = some (.array u k)
    · obtain ⟨u, k, h2⟩ := h2
      by_cases hl : c.vals.length = k
      · obtain ⟨o, h⟩ := triesO_exists (List.replicate k u) c.vals hv (by simp [hl])
        exact ⟨_, .array h2 hl h⟩
      · exact ⟨_, .arrayLength h2 hl⟩
    by_cases h3 : ∃ s o, res t = some (.bitSequence s o)
    · obtain ⟨s, o, h3⟩ := h3
      by_cases hb : ∃ b, List.Forall₂ IsBit c.vals b
      · obtain ⟨b, hb⟩ := hb
        exact ⟨_, .bits h3 hb⟩
      · exact ⟨_, .noBits h3 (fun b h => hb ⟨b, h⟩)⟩
    have h1 : ∀ u, res t ≠ some (.sequence u) := fun u h => h1 ⟨u, h⟩
    have h2 : ∀ u k, res t ≠ some (.array u k) := fun u k h => h2 ⟨u, k, h⟩
    have h3 : ∀ s o, res t ≠ some (.bitSequence s o) := fun s o h => h3 ⟨s, o, h⟩
    rcases vals_single_or c with ⟨v, h4⟩ | h4
    · obtain ⟨o, h⟩ := one t h4
      exact ⟨_, .other hs h1 h2 h3 h4 h⟩
    · exact ⟨_, .otherLength hs h1 h2 h3 h4⟩

theorem compositeO_exists {res : Table Id} {cc : Bool} {c : Composite Γ} (hv : ∀ v ∈ c.vals, ∀ t, ∃ o, EndsIn res cc v t o) (t : Id) : ∃ o, CompositeO res cc c t o := by
  obtain ⟨o, h⟩ := attemptO_exists hv t
  rcases runs_fails_or o with rfl | ho
  · cases hf : findSingleT res t with
    | none => exact ⟨_, .endless h (findSingleT_none.1 hf)⟩
    | some p =>
      obtain ⟨hi, hp⟩ := findSingleT_end hf
      by_cases hs : ∃ w, WrapsIn res t w
      · obtain ⟨w, hs⟩ := hs
        obtain ⟨o, h2⟩ := attemptO_exists hv p.1
        rcases runs_fails_or o with rfl | ho
        · rcases vals_single_or c with ⟨v, h1⟩ | h1
          · obtain ⟨o, h3⟩ := hv v (by simp [h1]) p.1
            exact ⟨_, .innerAlone h hs hi h2 h1 h3⟩
          · exact ⟨_, .innerFails h hs hi h2 h1⟩
        · exact ⟨_, .inner h hs hi h2 ho⟩
      · have hs : ∀ w, ¬ WrapsIn res t w := fun w h => hs ⟨w, h⟩
        rcases vals_single_or c with ⟨v, h1⟩ | h1
        · obtain ⟨o, h3⟩ := hv v (by simp [h1]) t
          exact ⟨_, .alone h hs h1 h3⟩
        · exact ⟨_, .fails h hs h1⟩
  · exact ⟨_, .direct h ho⟩

theorem variantO_exists {res : Table Id} {cc : Bool} {c : Composite Γ} (hv : ∀ v ∈ c.vals, ∀ t, ∃ o, EndsIn res cc v t o) (s : Str) (t : Id) : ∃ o, VariantO res cc s c t o := by
  cases hf : findSingleT res t with
  | none => exact ⟨_, .endless (findSingleT_none.1 hf)⟩
  | some p =>
    have hi := (findSingleT_end hf).1
    generalize p.1 = u at hi
    by_cases h : ∃ ds, res u = some (.variant ds) ∧ ∃ d ∈ ds, d.name = s
    · obtain ⟨ds, h1, d, hd, hn⟩ := h
      cases hf : ds.find? (fun e => e.name == s) with
      | none => exact (List.find?_eq_none.1 hf d hd (by simp [hn])).elim
      | some e =>
        obtain ⟨he, a, b, rfl, ha⟩ := List.find?_eq_some_iff_append.1 hf
        obtain ⟨o, h⟩ := fieldTriesO_exists hv e.fields
        exact ⟨_, .variant hi h1 (by simpa using he) (by simpa using ha) h⟩
    · exact ⟨_, .noVariant hi (fun ds h1 d hd hn => h ⟨ds, h1, d, hd, hn⟩)⟩

/-! ### Leaves -/

/-- The encoder always ends in the same way. -/
abbrev UniT (e : EncT Id) : Prop := ∃ o, RunsT e o

theorem uni_after {A : Type} {a : Option A} {f : A → EncT Id} (h : ∀ x, a = some x → UniT (f x)) : UniT (.after a f) := by
  rcases a with _ | x
  · exact ⟨_, runs_after_none⟩
  · exact h x rfl

theorem uni_seq {a b : EncT Id} (ha : UniT a) (hb : UniT b) : UniT (.seq a b) := by
  obtain ⟨o, ha⟩ := ha
  obtain ⟨o', hb⟩ := hb
  rcases runs_ok_or o with rfl | ho
  · exact ⟨_, runs_seq ha hb⟩
  · exact ⟨_, runs_seq_left ha ho⟩

theorem uni_mapErr {a : EncT Id} {f : EErr Id → EErr Id} (ha : UniT a) : UniT (.mapErr f a) := by
  obtain ⟨o, ha⟩ := ha; exact ⟨o, runs_mapErr ha⟩

theorem uni_uint {t : Id} {k : Nat} {n : Int} : UniT (.ret (encUintK t k n)) := by
  unfold encUintK; split
  · exact ⟨_, runs_write _⟩
  · exact ⟨_, runs_fail _⟩
theorem uni_int {t : Id} {k : Nat} {n : Int} : UniT (.ret (encIntK t k n)) := by
  unfold encIntK; split
  · exact ⟨_, runs_write _⟩
  · exact ⟨_, runs_fail _⟩
theorem uni_compact {t : Id} {k : Nat} {n : Int} : UniT (.ret (encCompactK t k n)) := by
  unfold encCompactK; split
  · exact ⟨_, runs_write _⟩
  · exact ⟨_, runs_fail _⟩

theorem uni_num (res : Table Id) (cc : Bool) (n : Int) (t : Id) : UniT (encNumT res cc n t) := by
  refine uni_after (fun p _ => ?_)
  split
  case h_11 => split
               · exact uni_uint
               · exact ⟨_, runs_fail _⟩
  case h_12 =>
    refine uni_after (fun q _ => ?_)
    split <;> first | exact uni_compact | exact ⟨_, runs_fail _⟩
  all_goals first | exact uni_uint | exact uni_int | exact ⟨_, runs_fail _⟩

theorem uni_items {t : Id} {named : Bool} : ∀ {cs : List (ChildT Id)} {k : Nat}, (∀ c ∈ cs, UniT (c.enc t)) → UniT (encItemsT t named k cs) := by
  intro cs
  induction cs with
  | nil => intro k _; exact ⟨_, runs_done⟩
  | cons c cs ih =>
    intro k h
    exact uni_seq (uni_mapErr (h c (by simp))) (ih (fun c hc => h c (by simp [hc])))

theorem uni_bytesN (res : Table Id) (bs : List UInt8) : ∀ n t, UniT (encBytesTN res bs n t) := by
  have hi : ∀ u, ∀ c ∈ byteChildrenT res bs, UniT (c.enc u) := by
    intro u c hc
    obtain ⟨b, -, rfl⟩ := List.mem_map.1 hc
    exact uni_num res _ _ u
  intro n
  induction n with
  | zero => intro t; exact ⟨.never, fun _ => rfl⟩
  | succ n ih =>
    intro t
    rw [encBytesTN]
    split
    · split
      · exact ⟨_, runs_fail _⟩
      · exact uni_items (hi _)
    · exact uni_seq ⟨_, runs_write _⟩ (uni_items (hi _))
    · exact ih _
    · exact ih _
    · exact ⟨_, runs_fail _⟩
    · exact ⟨_, runs_fail _⟩

theorem uni_bytes (res : Table Id) (bs : List UInt8) (t : Id) : UniT (encBytesT res bs t) := by
  by_cases h : ∀ n, RunsT (encBytesTN res bs n t) .never
  · refine ⟨.never, fun out => ?_⟩
    have : encBytesT res bs t out = none := encBytesT_none.2 (fun n => by
      have := h n out
      rcases hx : encBytesTN res bs n t out with _ | ⟨_ | _, _⟩ <;> rw [hx] at this <;> first | rfl | cases this)
    rw [this]; rfl
  · obtain ⟨n, h⟩ : ∃ n, ¬ RunsT (encBytesTN res bs n t) .never := Classical.not_forall.1 h
    obtain ⟨o, ho⟩ := uni_bytesN res bs n t
    refine ⟨o, fun out => ?_⟩
    have hout := ho out
    cases hx : encBytesTN res bs n t out with
    | none =>
      rw [hx] at hout
      exact absurd (by rw [← hout] at ho; exact ho) h
    | some r =>
      rw [hx] at hout
      have : encBytesT res bs t out = some r := (limit_some (fun n m r h => encBytesTN_mono res bs n m t out r h)).2 ⟨n, hx⟩
      rw [this]
      exact hout

theorem uni_primitive (res : Table Id) (cc : Bool) (p : Primitive) (t : Id) : UniT (encPrimitiveT res cc p t) := by
  cases p with
  | bool b => exact uni_after (fun p _ => by split <;> first | exact ⟨_, runs_write _⟩ | exact ⟨_, runs_fail _⟩)
  | char c => exact uni_num res cc _ t
  | string s => exact uni_after (fun p _ => by split <;> first | exact ⟨_, runs_write _⟩ | exact ⟨_, runs_fail _⟩)
  | u128 n => exact uni_num res false _ t
  | i128 n => exact uni_num res false _ t
  | u256 b => exact uni_bytes res _ t
  | i256 b => exact uni_bytes res _ t

theorem uni_value (res : Table Id) (cc : Bool) (v : Value Γ) : ∀ t, ∃ o, EndsIn res cc v t o := by
  have comp : ∀ (c : Composite Γ) x, (∀ v ∈ c.vals, ∀ t, ∃ o, EndsIn res cc v t o) → ∀ t, ∃ o, EndsIn res cc (.mk (.composite c) x) t o := by
    intro c x hv t
    obtain ⟨o, h⟩ := compositeO_exists hv t
    exact ⟨o, runs_composite h⟩
  have var : ∀ n (c : Composite Γ) x, (∀ v ∈ c.vals, ∀ t, ∃ o, EndsIn res cc v t o) → ∀ t, ∃ o, EndsIn res cc (.mk (.variant (.mk n c)) x) t o := by
    intro n c x hv t
    obtain ⟨o, h⟩ := variantO_exists hv n t
    exact ⟨o, runs_variant h⟩
  have pairs : ∀ {fs : List (Str × Value Γ)} {P : Value Γ → Prop}, (∀ p ∈ fs, P p.2) → ∀ v ∈ (Composite.named fs).vals, P v := by
    intro fs P h v hv
    obtain ⟨p, hp, rfl⟩ := List.mem_map.1 hv
    exact h p hp
  induction v using Value.ind with
  | named fs x ih => exact comp _ x (pairs ih)
  | unnamed vs x ih => exact comp _ x ih
  | vnamed n fs x ih => exact var n _ x (pairs ih)
  | vunnamed n vs x ih => exact var n _ x ih
  | bits b x =>
    intro t
    exact uni_after (fun p _ => by split <;> first | exact ⟨_, runs_write _⟩ | exact ⟨_, runs_fail _⟩)
  | prim p x => exact fun t => uni_primitive res cc p t

end SV
