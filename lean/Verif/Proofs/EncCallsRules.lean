import Verif.Proofs.EncCallsExact
import Verif.Proofs.EncodeRules
/-
The rules for the number of calls.
-/
namespace SV

variable {Id Γ : Type}

/-- What a function does: success or failure, and so many calls. -/
def OutC (a : EncC Id) (ok : Bool) (n : Nat) : Prop := if ok then ∃ bs, OkC a bs n else FailC a n

theorem OutC.ok {a : EncC Id} {bs : List UInt8} {n : Nat} (h : OkC a bs n) : OutC a true n := ⟨bs, h⟩
theorem OutC.fail {a : EncC Id} {n : Nat} (h : FailC a n) : OutC a false n := h

theorem outC_seq {a b : EncC Id} {n m : Nat} {ok : Bool} (ha : OutC a true n) (hb : OutC b ok m) : OutC (.seq a b) ok (n + m) := by
  obtain ⟨p, ha⟩ := ha
  cases ok with
  | true => obtain ⟨q, hb⟩ := hb; exact ⟨_, okC_seq ha hb⟩
  | false => exact failC_seq ha hb

theorem outC_mapErr {f : EErr Id → EErr Id} {a : EncC Id} {n : Nat} {ok : Bool} (ha : OutC a ok n) : OutC (.mapErr f a) ok n := by
  cases ok with
  | true => obtain ⟨p, ha⟩ := ha; exact ⟨p, okC_mapErr ha⟩
  | false => exact failC_mapErr ha

theorem outC_tick {d : ValueDef Γ} {reg : Reg Id} {cc : Bool} {x : Γ} {t : Id} {n : Nat} {ok : Bool} (h : OutC (d.encodeC reg cc t) ok n) :
    OutC ((Value.mk d x).encodeC reg cc t) ok (1 + n) := by
  cases ok with
  | true => obtain ⟨p, ha⟩ := h; exact ⟨p, okC_tick ha⟩
  | false => exact failC_tick h

theorem calls_out (reg : Reg Id) (cc : Bool) (v : Value Γ) (t : Id) (out : List UInt8) : v.encodeC reg cc t out = (v.encode reg cc t out, v.calls reg cc t) := by
  refine Prod.ext ?_ (steady_value reg cc v t out)
  rw [← erase_value reg cc v t]; rfl

theorem trial_iff {reg : Reg Id} {cc : Bool} {v : Value Γ} {t : Id} {ok : Bool} {n : Nat} : Trial reg cc v t ok n ↔ OutC (v.encodeC reg cc t) ok n := by
  cases ok with
  | true =>
    constructor
    · rintro ⟨rfl, bs, h⟩
      exact ⟨bs, fun out => by rw [calls_out, h out]⟩
    · rintro ⟨bs, h⟩
      refine ⟨?_, bs, fun out => ?_⟩
      · have := h []; rw [calls_out] at this; exact (congrArg Prod.snd this).symm
      · have := h out; rw [calls_out] at this; exact congrArg Prod.fst this
  | false =>
    constructor
    · rintro ⟨rfl, h⟩ out
      obtain ⟨e, o, h⟩ := h out
      exact ⟨e, o, by rw [calls_out, h]⟩
    · intro h
      refine ⟨?_, fun out => ?_⟩
      · obtain ⟨e, o, h⟩ := h []; rw [calls_out] at h; exact (congrArg Prod.snd h).symm
      · obtain ⟨e, o, h⟩ := h out; rw [calls_out] at h; exact ⟨e, o, congrArg Prod.fst h⟩

theorem trial_exists (reg : Reg Id) (cc : Bool) (v : Value Γ) (t : Id) : ∃ ok n, Trial reg cc v t ok n := by
  rcases okay_or_fails (append_value reg cc v t) with h | h
  · exact ⟨true, _, rfl, h⟩
  · exact ⟨false, _, rfl, h⟩

/-! ### Children -/

/-- The child stands for the value. -/
abbrev StandsC (reg : Reg Id) (cc : Bool) (k : CChild Id) (v : Value Γ) : Prop := k.enc = v.encodeC reg cc ∧ k.bit = bitOf v

theorem stands_childC (reg : Reg Id) (cc : Bool) (c : Composite Γ) : List.Forall₂ (StandsC reg cc) (c.encChildrenC reg cc) c.vals := by
  cases c with
  | named l =>
    rw [Composite.encChildrenC, encNamedC_eq]
    show List.Forall₂ _ _ (l.map _)
    induction l with
    | nil => exact .nil
    | cons p l ih => exact .cons ⟨rfl, rfl⟩ ih
  | unnamed vs =>
    rw [Composite.encChildrenC, encUnnamedC_eq]
    show List.Forall₂ _ _ vs
    induction vs with
    | nil => exact .nil
    | cons p l ih => exact .cons ⟨rfl, rfl⟩ ih

theorem outC_items {reg : Reg Id} {cc : Bool} {u : Id} {nm : Bool} {cs : List (CChild Id)} {vs : List (Value Γ)} (h : List.Forall₂ (StandsC reg cc) cs vs) :
    ∀ {ok n} k, Tries reg cc (List.replicate vs.length u) vs ok n → OutC (encItemsC u nm k cs) ok n := by
  induction h with
  | nil => intro ok n k h; cases h; exact .ok (okC_leaf okay_done)
  | cons h1 _ ih =>
    intro ok n k h
    rw [List.length_cons, List.replicate_succ] at h
    cases h with
    | stop h => exact .fail (failC_seq_left (failC_mapErr (by rw [h1.1]; exact trial_iff.1 h)))
    | next h2 h3 => exact outC_seq (outC_mapErr (by rw [h1.1]; exact trial_iff.1 h2)) (ih _ h3)

theorem outC_byOrder {reg : Reg Id} {cc : Bool} {cs : List (CChild Id)} {vs : List (Value Γ)} (h : List.Forall₂ (StandsC reg cc) cs vs) :
    ∀ {fs : List (Field Id)} {ok n} k, Tries reg cc (fs.map (fun f => f.id)) vs ok n → OutC (encByOrderC k cs fs) ok n := by
  induction h with
  | nil =>
    intro fs ok n k h
    cases fs with
    | nil => cases h; exact .ok (okC_leaf okay_done)
    | cons f fs => cases h
  | cons h1 _ ih =>
    intro fs ok n k h
    cases fs with
    | nil => cases h
    | cons f fs =>
      rw [List.map_cons] at h
      cases h with
      | stop h => exact .fail (failC_seq_left (failC_mapErr (by rw [h1.1]; exact trial_iff.1 h)))
      | next h2 h3 => exact outC_seq (outC_mapErr (by rw [h1.1]; exact trial_iff.1 h2)) (ih _ h3)

theorem find_lastC {reg : Reg Id} {cc : Bool} {l : List (Str × Value Γ)} {n : Str} {v : Value Γ} (h : LastNamed l n v) :
    (l.map (childNamedC reg cc)).reverse.find? (fun c => c.name.getD [] == n) = some (childNamedC reg cc (n, v)) := by
  obtain ⟨l1, l3, rfl, h⟩ := h
  rw [List.find?_eq_some_iff_append]
  refine ⟨by simp [childNamedC], (l3.map (childNamedC reg cc)).reverse, (l1.map (childNamedC reg cc)).reverse, by simp, ?_⟩
  intro a ha
  obtain ⟨⟨m, w⟩, hm, rfl⟩ := List.mem_map.1 (List.mem_reverse.1 ha)
  simp only [childNamedC, Option.getD_some, Bool.not_eq_true', beq_eq_false_iff_ne, ne_eq]
  rintro rfl
  exact h w hm

theorem find_noneC {reg : Reg Id} {cc : Bool} {l : List (Str × Value Γ)} {n : Str} (h : ∀ v, (n, v) ∉ l) :
    (l.map (childNamedC reg cc)).reverse.find? (fun c => c.name.getD [] == n) = none := by
  rw [List.find?_eq_none]
  intro a ha
  obtain ⟨⟨m, w⟩, hm, rfl⟩ := List.mem_map.1 (List.mem_reverse.1 ha)
  simp only [childNamedC, Option.getD_some, beq_iff_eq]
  rintro rfl
  exact h w hm

theorem outC_byName {reg : Reg Id} {cc : Bool} {l : List (Str × Value Γ)} {fs : List (Field Id)} {ok : Bool} {n : Nat} (h : NameTries reg cc l fs ok n) :
    OutC (encByNameC (l.map (childNamedC reg cc)) fs) ok n := by
  induction h with
  | nil => exact .ok (okC_leaf okay_done)
  | missing h =>
    rw [encByNameC, find_noneC h]
    exact .fail (failC_leaf (fails_fail _))
  | stop h1 h2 =>
    rw [encByNameC, find_lastC h1]
    exact .fail (failC_seq_left (failC_mapErr (trial_iff.1 h2)))
  | next h1 h2 _ ih =>
    rw [encByNameC, find_lastC h1]
    exact outC_seq (outC_mapErr (trial_iff.1 h2)) ih

theorem outC_fieldsTo {reg : Reg Id} {cc : Bool} {c : Composite Γ} {fs : List (Field Id)} {ok : Bool} {n : Nat} (h : FieldTries reg cc c fs ok n) :
    OutC (encFieldsToC (c.encChildrenC reg cc) fs) ok n := by
  have order : ∀ {c : Composite Γ}, ((∃ vs, c = .unnamed vs) ∨ c = .named [] ∨ ∀ f ∈ fs, f.name = none) →
      (fs.any (fun f => f.name.isSome) && (c.encChildrenC reg cc).any (fun c => c.name.isSome)) = false := by
    intro c h
    rw [Bool.and_eq_false_iff]
    rcases h with ⟨vs, rfl⟩ | rfl | h
    · right
      rw [Composite.encChildrenC, encUnnamedC_eq, List.any_map]
      simp [childC]
    · right
      rw [Composite.encChildrenC, encNamedC_eq]; rfl
    · left
      simp only [List.any_eq_false, Bool.not_eq_true]
      intro f hf
      rw [h f hf]; rfl
  unfold encFieldsToC
  cases h with
  | @byName l _ _ _ h1 h2 h3 =>
    rw [Composite.encChildrenC, encNamedC_eq]
    rw [if_pos]
    · exact outC_byName h3
    · obtain ⟨f, hf, hn⟩ := h2
      obtain ⟨p, l, rfl⟩ := List.exists_cons_of_ne_nil h1
      simp only [Bool.and_eq_true, List.any_eq_true]
      exact ⟨⟨f, hf, by cases hx : f.name with | none => exact (hn hx).elim | some _ => rfl⟩, childNamedC reg cc p, by simp, rfl⟩
  | byOrder h1 h2 h3 =>
    rw [order h1]
    simp only [Bool.false_eq_true, if_false]
    have hl := (stands_childC reg cc c).length_eq
    rw [if_neg (by rw [hl, h2]; simp)]
    exact outC_byOrder (stands_childC reg cc c) 0 h3
  | length h1 h2 =>
    rw [order h1]
    simp only [Bool.false_eq_true, if_false]
    have hl := (stands_childC reg cc c).length_eq
    rw [if_pos (by rw [hl]; exact fun h => h2 h.symm)]
    exact .fail (failC_leaf (fails_fail _))

theorem childC_single {reg : Reg Id} {cc : Bool} {c : Composite Γ} {v : Value Γ} (h : c.vals = [v]) : ∃ k, c.encChildrenC reg cc = [k] ∧ k.enc = v.encodeC reg cc := by
  have hs := stands_childC reg cc c
  rw [h] at hs
  generalize c.encChildrenC reg cc = cs at hs
  cases hs with
  | cons h1 h2 => cases h2; exact ⟨_, rfl, h1.1⟩

theorem childC_not_single {reg : Reg Id} {cc : Bool} {c : Composite Γ} (h : c.vals.length ≠ 1) (k : CChild Id) : c.encChildrenC reg cc ≠ [k] := by
  intro hk
  have hs := (stands_childC reg cc c).length_eq
  rw [hk] at hs
  exact h hs.symm

/-! ### One attempt -/

theorem asType_struct {reg : Reg Id} {t : Id} (h : StructLike reg t) (cs : List (CChild Id)) : doEncodeCompositeC reg cs t = encCompositeAsTypeC reg cs t := by
  unfold doEncodeCompositeC
  rcases h with ⟨fs, h⟩ | ⟨ts, h⟩ <;> rw [h]

theorem outC_attempt {reg : Reg Id} {cc : Bool} {c : Composite Γ} {t : Id} {ok : Bool} {n : Nat} (h : Attempt reg cc c t ok n) :
    OutC (doEncodeCompositeC reg (c.encChildrenC reg cc) t) ok n := by
  have hst := stands_childC reg cc c
  have hl := hst.length_eq
  cases h with
  | struct h1 h2 h3 h4 h5 =>
    rw [asType_struct h1]
    unfold encCompositeAsTypeC
    rw [unwrapped_skip h2, h3]
    simp only
    split
    · rename_i k hk hc
      cases c with
      | named l =>
        exfalso
        rw [Composite.encChildrenC, encNamedC_eq] at hk hc
        match l, hc with
        | [p], hc => simp [childNamedC] at hk
      | unnamed vs =>
        exfalso
        rw [Composite.encChildrenC, encUnnamedC_eq] at hc
        match vs, hc, h4 with
        | [v], _, h4 => exact h4 v rfl
    · exact outC_fieldsTo h5
  | inStruct h1 h2 h3 h4 h5 =>
    subst h4
    rw [asType_struct h1, childrenC_one, asTypeC_one rfl (by rw [unwrapped_skip h2, h3]), unwrapped_skip h2]
    exact trial_iff.1 h5
  | @tuple w ts _ _ h1 h2 h3 h4 h5 h6 =>
    rw [asType_struct h1]
    unfold encCompositeAsTypeC
    rw [unwrapped_skip h2, h3]
    simp only
    split
    · rename_i k hk; exact (childC_not_single h4 k hk).elim
    · refine outC_fieldsTo (.byOrder (.inr (.inr ?_)) (by simpa using h5) (by simpa [List.map_map, Function.comp_def] using h6))
      intro f hf
      obtain ⟨w, -, rfl⟩ := List.mem_map.1 hf
      rfl
  | @tupleLength w ts h1 h2 h3 h4 h5 =>
    rw [asType_struct h1]
    unfold encCompositeAsTypeC
    rw [unwrapped_skip h2, h3]
    simp only
    split
    · rename_i k hk; exact (childC_not_single h4 k hk).elim
    · refine outC_fieldsTo (.length (.inr (.inr ?_)) (by simpa using h5))
      intro f hf
      obtain ⟨w, -, rfl⟩ := List.mem_map.1 hf
      rfl
  | inTuple h1 h2 h3 h4 h5 =>
    obtain ⟨k, hk, he⟩ := childC_single (reg := reg) (cc := cc) h4
    rw [asType_struct h1, hk]
    unfold encCompositeAsTypeC
    rw [unwrapped_skip h2, h3]
    simp only [he]
    exact trial_iff.1 h5
  | @inWrapper w d _ _ _ h1 h2 h3 h4 h5 h6 =>
    obtain ⟨k, hk, he⟩ := childC_single (reg := reg) (cc := cc) h5
    rw [asType_struct h1, hk]
    unfold encCompositeAsTypeC
    rw [unwrapped_skip h2, h3]
    cases d with
    | composite fs => exact (h4 (.inl ⟨fs, h3⟩)).elim
    | tuple ts => exact (h4 (.inr ⟨ts, h3⟩)).elim
    | _ => simp only [he]; exact trial_iff.1 h6
  | @noWrapper w d h1 h2 h3 h4 h5 =>
    have hn := childC_not_single (reg := reg) (cc := cc) h5
    rw [asType_struct h1]
    generalize c.encChildrenC reg cc = cs at hn
    unfold encCompositeAsTypeC
    rw [unwrapped_skip h2, h3]
    cases d with
    | composite fs => exact (h4 (.inl ⟨fs, h3⟩)).elim
    | tuple ts => exact (h4 (.inr ⟨ts, h3⟩)).elim
    | _ =>
      match cs, hn with
      | [], _ => exact .fail (failC_leaf (fails_fail _))
      | [k], hn => exact (hn k rfl).elim
      | _ :: _ :: _, _ => exact .fail (failC_leaf (fails_fail _))
  | missing h1 h2 h3 =>
    rw [asType_struct h1]
    unfold encCompositeAsTypeC
    rw [unwrapped_skip h2, h3]
    exact .fail (failC_leaf (fails_fail _))
  | sequence h1 h2 =>
    unfold doEncodeCompositeC
    rw [h1]
    simp only
    have := outC_seq (n := 0) (.ok (okC_leaf (okay_write (compactEnc ((c.encChildrenC reg cc).length % 2 ^ 32))))) (outC_items (nm := true) hst 0 h2)
    rwa [Nat.zero_add] at this
  | @array u k _ _ h1 h2 h3 =>
    unfold doEncodeCompositeC
    rw [h1]
    simp only
    rw [if_neg (by rw [hl, h2]; simp)]
    rw [← h2] at h3
    exact outC_items hst 0 h3
  | arrayLength h1 h2 =>
    unfold doEncodeCompositeC
    rw [h1]
    simp only
    rw [if_pos (by rw [hl]; exact h2)]
    exact .fail (failC_leaf (fails_fail _))
  | @bits s o b h1 h2 =>
    have hst' : List.Forall₂ (Stands reg cc) ((c.encChildrenC reg cc).map CChild.erase) c.vals := by
      rw [List.forall₂_map_left_iff]
      refine hst.imp ?_
      intro k v hk
      refine ⟨?_, hk.2⟩
      funext t out
      show (k.enc t out).1 = _
      rw [hk.1, calls_out]
    unfold doEncodeCompositeC
    rw [h1]
    simp only
    rw [(encBools_iff hst').2 h2]
    exact .ok (okC_leaf (okay_write _))
  | @noBits s o h1 h2 =>
    have hst' : List.Forall₂ (Stands reg cc) ((c.encChildrenC reg cc).map CChild.erase) c.vals := by
      rw [List.forall₂_map_left_iff]
      refine hst.imp ?_
      intro k v hk
      refine ⟨?_, hk.2⟩
      funext t out
      show (k.enc t out).1 = _
      rw [hk.1, calls_out]
    unfold doEncodeCompositeC
    rw [h1]
    simp only
    cases hb : encBools 0 ((c.encChildrenC reg cc).map CChild.erase) with
    | ok b => exact (h2 b ((encBools_iff hst').1 hb)).elim
    | error e => exact .fail (failC_leaf (fun out => ⟨_, _, rfl⟩))
  | other h1 h2 h3 h4 h5 h6 =>
    obtain ⟨k, hk, he⟩ := childC_single (reg := reg) (cc := cc) h5
    rw [hk]
    unfold doEncodeCompositeC
    have hr := trial_iff.1 h6
    split <;> rename_i ht
    · exact (h1 (.inl ⟨_, ht⟩)).elim
    · exact (h1 (.inr ⟨_, ht⟩)).elim
    · exact (h2 _ ht).elim
    · exact (h3 _ _ ht).elim
    · exact (h4 _ _ ht).elim
    · simp only [he]; exact hr
  | otherLength h1 h2 h3 h4 h5 =>
    have hn := childC_not_single (reg := reg) (cc := cc) h5
    generalize c.encChildrenC reg cc = cs at hn
    unfold doEncodeCompositeC
    split <;> rename_i ht
    · exact (h1 (.inl ⟨_, ht⟩)).elim
    · exact (h1 (.inr ⟨_, ht⟩)).elim
    · exact (h2 _ ht).elim
    · exact (h3 _ _ ht).elim
    · exact (h4 _ _ ht).elim
    · match cs, hn with
      | [], _ => exact .fail (failC_leaf (fails_fail _))
      | [k], hn => exact (hn k rfl).elim
      | _ :: _ :: _, _ => exact .fail (failC_leaf (fails_fail _))

/-! ### All attempts -/

theorem outC_last {reg : Reg Id} {cc : Bool} {c : Composite Γ} {v : Value Γ} (h : c.vals = [v]) {t : Id} {ok : Bool} {n : Nat} (ht : Trial reg cc v t ok n) (e : EErr Id) :
    OutC (encLastC (c.encChildrenC reg cc) t e) ok n := by
  obtain ⟨k, hk, he⟩ := childC_single (reg := reg) (cc := cc) h
  rw [hk]
  have := trial_iff.1 ht
  cases ok with
  | true =>
    obtain ⟨bs, h⟩ := this
    refine ⟨bs, fun out => ?_⟩
    unfold encLastC
    simp only [he]
    rw [h []]
    simp
  | false =>
    intro out
    obtain ⟨e', o, h⟩ := this []
    unfold encLastC
    simp only [he]
    rw [h]
    exact ⟨_, _, rfl⟩

theorem outC_last_not {reg : Reg Id} {cc : Bool} {c : Composite Γ} (h : c.vals.length ≠ 1) (t : Id) (e : EErr Id) :
    OutC (encLastC (c.encChildrenC reg cc) t e) false 0 := by
  have hn := childC_not_single (reg := reg) (cc := cc) h
  generalize c.encChildrenC reg cc = cs at hn
  intro out
  match cs, hn with
  | [], _ => exact ⟨_, _, rfl⟩
  | [k], hn => exact (hn k rfl).elim
  | _ :: _ :: _, _ => exact ⟨_, _, rfl⟩

theorem outC_one {reg : Reg Id} {cs : List (CChild Id)} {t : Id} {n k : Nat} {ok : Bool} (h : OutC (doEncodeCompositeC reg cs t) false n) (hs : ∀ w, ¬ SingleEntry reg t w)
    (hl : ∀ e, OutC (encLastC cs t e) ok k) : OutC (encCompositeC reg cs t) ok (n + k) := by
  obtain ⟨e, o, h⟩ := h []
  have key : ∀ out, encCompositeC reg cs t out = ((encLastC cs t e out).1, n + (encLastC cs t e out).2) := by
    intro out
    unfold encCompositeC
    rw [h, findSingle_done hs]
  have := hl e
  cases ok with
  | true =>
    obtain ⟨bs, hb⟩ := this
    exact ⟨bs, fun out => by rw [key, hb out]⟩
  | false =>
    intro out
    obtain ⟨e', o', hb⟩ := this out
    exact ⟨e', o', by rw [key, hb]⟩

theorem outC_two {reg : Reg Id} {cs : List (CChild Id)} {t u w : Id} {n m k : Nat} {ok : Bool} (h : OutC (doEncodeCompositeC reg cs t) false n) (hs : SingleEntry reg t w)
    (hu : Innermost reg t u) (h2 : OutC (doEncodeCompositeC reg cs u) false m)
    (hl : ∀ e, OutC (encLastC cs u e) ok k) : OutC (encCompositeC reg cs t) ok (n + m + k) := by
  obtain ⟨e, o, h⟩ := h []
  obtain ⟨e2, o2, h2⟩ := h2 []
  have hf : findSingle reg t = (u, true) := Prod.ext (findSingle_iff.2 hu) (by rw [findSingle_step hs])
  have key : ∀ out, encCompositeC reg cs t out = ((encLastC cs u e out).1, n + m + (encLastC cs u e out).2) := by
    intro out
    unfold encCompositeC
    rw [h, hf]
    simp only
    rw [h2]
  have := hl e
  cases ok with
  | true =>
    obtain ⟨bs, hb⟩ := this
    exact ⟨bs, fun out => by rw [key, hb out]⟩
  | false =>
    intro out
    obtain ⟨e', o', hb⟩ := this out
    exact ⟨e', o', by rw [key, hb]⟩

theorem callsBy_sound {reg : Reg Id} {cc : Bool} {v : Value Γ} {t : Id} {ok : Bool} {n : Nat} (h : CallsBy reg cc v t ok n) : Trial reg cc v t ok n := by
  have comp : ∀ {c : Composite Γ} {x : Γ} {t : Id} {ok n}, OutC (encCompositeC reg (c.encChildrenC reg cc) t) ok n → Trial reg cc (.mk (.composite c) x) t ok (1 + n) := by
    intro c x t ok n h
    refine trial_iff.2 (outC_tick ?_)
    rw [ValueDef.encodeC]
    exact h
  cases h with
  | leaf h1 h2 =>
    refine ⟨?_, h2⟩
    obtain ⟨d, x⟩ := v
    cases d with
    | composite c => simp [Value.fields?] at h1
    | variant c => obtain ⟨n, c⟩ := c; simp [Value.fields?] at h1
    | primitive p => unfold Value.calls; rw [Value.encodeC, ValueDef.encodeC]; rfl
    | bitSequence b => unfold Value.calls; rw [Value.encodeC, ValueDef.encodeC]; rfl
  | @variant s c x t u before d after ok n h1 h2 h3 h4 h5 =>
    refine trial_iff.2 (outC_tick ?_)
    rw [ValueDef.encodeC]
    unfold encVariantC
    rw [findSingle_iff.2 h1, h2]
    simp only
    have : (before ++ d :: after).find? (fun e => e.name == s) = some d := by
      rw [List.find?_append, List.find?_eq_none.2 (by simpa using h4)]
      simp [h3]
    rw [this]
    have := outC_seq (n := 0) (.ok (okC_leaf (okay_write [d.index]))) (outC_fieldsTo h5)
    rwa [Nat.zero_add] at this
  | @noVariant s c x t u h1 h2 =>
    refine trial_iff.2 (outC_tick (n := 0) ?_)
    rw [ValueDef.encodeC]
    unfold encVariantC
    rw [findSingle_iff.2 h1]
    split
    · rename_i ds hd
      have : ds.find? (fun e => e.name == s) = none := List.find?_eq_none.2 (by simpa using h2 ds hd)
      rw [this]
      exact .fail (failC_leaf (fails_fail _))
    · exact .fail (failC_leaf (fails_fail _))
    · exact .fail (failC_leaf (fails_fail _))
  | direct h =>
    obtain ⟨bs, h⟩ := outC_attempt h
    exact comp (.ok (okC_do h))
  | @inner c x t w u n m h1 h2 h3 h4 =>
    rw [Nat.add_assoc]
    refine comp ?_
    obtain ⟨e, o, h⟩ := outC_attempt h1 []
    obtain ⟨bs, h5⟩ := outC_attempt h4
    have hf : findSingle reg t = (u, true) := Prod.ext (findSingle_iff.2 h3) (by rw [findSingle_step h2])
    refine ⟨bs, fun out => ?_⟩
    unfold encCompositeC
    rw [h, hf]
    simp only
    rw [h5 []]
    simp
  | innerAlone h1 h2 h3 h4 h5 h6 =>
    have := outC_two (outC_attempt h1) h2 h3 (outC_attempt h4) (fun e => outC_last h5 h6 e)
    rw [Nat.add_assoc 1, Nat.add_assoc 1]
    exact comp this
  | innerStuck h1 h2 h3 h4 h5 =>
    have := outC_two (outC_attempt h1) h2 h3 (outC_attempt h4) (fun e => outC_last_not h5 _ e)
    rw [Nat.add_assoc 1]
    exact comp this
  | alone h1 h2 h3 h4 =>
    have := outC_one (outC_attempt h1) h2 (fun e => outC_last h3 h4 e)
    rw [Nat.add_assoc 1]
    exact comp this
  | stuck h1 h2 h3 =>
    have := outC_one (outC_attempt h1) h2 (fun e => outC_last_not h3 _ e)
    exact comp this

/-! ### There is always a rule -/

theorem tries_exists (reg : Reg Id) (cc : Bool) : ∀ (ts : List Id) (vs : List (Value Γ)), ts.length = vs.length → ∃ ok n, Tries reg cc ts vs ok n
  | [], [], _ => ⟨_, _, .nil⟩
  | [], _ :: _, h => by simp at h
  | _ :: _, [], h => by simp at h
  | t :: ts, v :: vs, h => by
    obtain ⟨ok, n, h1⟩ := trial_exists reg cc v t
    obtain ⟨ok', m, h2⟩ := tries_exists reg cc ts vs (by simpa using h)
    cases ok with
    | true => exact ⟨_, _, .next h1 h2⟩
    | false => exact ⟨_, _, .stop h1⟩

theorem lastNamed_or (l : List (Str × Value Γ)) (n : Str) : (∃ v, LastNamed l n v) ∨ ∀ v, (n, v) ∉ l := by
  induction l with
  | nil => exact .inr (fun v h => by cases h)
  | cons p l ih =>
    obtain ⟨m, w⟩ := p
    rcases ih with ⟨v, a, b, rfl, h⟩ | h
    · exact .inl ⟨v, (m, w) :: a, b, rfl, h⟩
    · by_cases he : m = n
      · subst he
        exact .inl ⟨w, [], l, rfl, h⟩
      · refine .inr (fun v hv => ?_)
        rcases List.mem_cons.1 hv with hv | hv
        · simp only [Prod.mk.injEq] at hv; exact he hv.1.symm
        · exact h v hv

theorem nameTries_exists (reg : Reg Id) (cc : Bool) (l : List (Str × Value Γ)) : ∀ (fs : List (Field Id)), ∃ ok n, NameTries reg cc l fs ok n
  | [] => ⟨_, _, .nil⟩
  | f :: fs => by
    rcases lastNamed_or l (f.name.getD []) with ⟨v, h⟩ | h
    · obtain ⟨ok, n, h1⟩ := trial_exists reg cc v f.id
      obtain ⟨ok', m, h2⟩ := nameTries_exists reg cc l fs
      cases ok with
      | true => exact ⟨_, _, .next h h1 h2⟩
      | false => exact ⟨_, _, .stop h h1⟩
    · exact ⟨_, _, .missing h⟩

theorem fieldTries_exists (reg : Reg Id) (cc : Bool) (c : Composite Γ) (fs : List (Field Id)) : ∃ ok n, FieldTries reg cc c fs ok n := by
  have order : ((∃ vs, c = .unnamed vs) ∨ c = .named [] ∨ ∀ f ∈ fs, f.name = none) → ∃ ok n, FieldTries reg cc c fs ok n := by
    intro h
    by_cases hl : c.vals.length = fs.length
    · obtain ⟨ok, n, h1⟩ := tries_exists reg cc (fs.map (fun f => f.id)) c.vals (by simp [hl])
      exact ⟨_, _, .byOrder h hl h1⟩
    · exact ⟨_, _, .length h hl⟩
  cases c with
  | unnamed vs => exact order (.inl ⟨vs, rfl⟩)
  | named l =>
    by_cases h0 : l = []
    · subst h0; exact order (.inr (.inl rfl))
    · by_cases hf : ∀ f ∈ fs, f.name = none
      · exact order (.inr (.inr hf))
      · obtain ⟨ok, n, h⟩ := nameTries_exists reg cc l fs
        refine ⟨ok, n, .byName h0 ?_ h⟩
        apply Classical.byContradiction
        intro hn
        refine hf (fun f hf' => Classical.byContradiction fun hx => hn ⟨f, hf', hx⟩)

theorem vals_single_or (c : Composite Γ) : (∃ v, c.vals = [v]) ∨ c.vals.length ≠ 1 := by
  match h : c.vals with
  | [] => right; simp
  | [v] => left; exact ⟨v, rfl⟩
  | _ :: _ :: _ => right; simp

theorem attempt_exists (reg : Reg Id) (cc : Bool) (c : Composite Γ) (t : Id) : ∃ ok n, Attempt reg cc c t ok n := by
  have one : ∀ {t v}, ∃ ok n, Trial reg cc (v : Value Γ) t ok n := trial_exists reg cc _ _
  by_cases hs : StructLike reg t
  · have hu := skip_unwrapped reg t
    generalize skip reg t = w at hu
    by_cases hw : StructLike reg w
    · rcases hw with ⟨fs, hw⟩ | ⟨ts, hw⟩
      · by_cases h1 : ∃ v, c = .unnamed [v]
        · obtain ⟨v, hv⟩ := h1
          obtain ⟨ok, n, h⟩ := trial_exists reg cc v w
          exact ⟨_, _, .inStruct hs hu hw hv h⟩
        · obtain ⟨ok, n, h⟩ := fieldTries_exists reg cc c fs
          exact ⟨_, _, .struct hs hu hw (fun v hv => h1 ⟨v, hv⟩) h⟩
      · rcases vals_single_or c with ⟨v, hv⟩ | hv
        · obtain ⟨ok, n, h⟩ := trial_exists reg cc v w
          exact ⟨_, _, .inTuple hs hu hw hv h⟩
        · by_cases hl : c.vals.length = ts.length
          · obtain ⟨ok, n, h⟩ := tries_exists reg cc ts c.vals hl.symm
            exact ⟨_, _, .tuple hs hu hw hv hl h⟩
          · exact ⟨_, _, .tupleLength hs hu hw hv hl⟩
    · cases hd : reg.resolve w with
      | none => exact ⟨_, _, .missing hs hu hd⟩
      | some d =>
        rcases vals_single_or c with ⟨v, hv⟩ | hv
        · obtain ⟨ok, n, h⟩ := trial_exists reg cc v w
          exact ⟨_, _, .inWrapper hs hu hd hw hv h⟩
        · exact ⟨_, _, .noWrapper hs hu hd hw hv⟩
  · by_cases h1 : ∃ u, reg.resolve t = some (.sequence u)
    · obtain ⟨u, h1⟩ := h1
      obtain ⟨ok, n, h⟩ := tries_exists reg cc (List.replicate c.vals.length u) c.vals (by simp)
      exact ⟨_, _, .sequence h1 h⟩
    by_cases h2 : ∃ u k, reg.resolve t = some (.array u k)
    · obtain ⟨u, k, h2⟩ := h2
      by_cases hl : c.vals.length = k
      · obtain ⟨ok, n, h⟩ := tries_exists reg cc (List.replicate k u) c.vals (by simp [hl])
        exact ⟨_, _, .array h2 hl h⟩
      · exact ⟨_, _, .arrayLength h2 hl⟩
    by_cases h3 : ∃ s o, reg.resolve t = some (.bitSequence s o)
    · obtain ⟨s, o, h3⟩ := h3
      by_cases hb : ∃ b, List.Forall₂ IsBit c.vals b
      · obtain ⟨b, hb⟩ := hb
        exact ⟨_, _, .bits h3 hb⟩
      · exact ⟨_, _, .noBits h3 (fun b h => hb ⟨b, h⟩)⟩
    have h1 : ∀ u, reg.resolve t ≠ some (.sequence u) := fun u h => h1 ⟨u, h⟩
    have h2 : ∀ u k, reg.resolve t ≠ some (.array u k) := fun u k h => h2 ⟨u, k, h⟩
    have h3 : ∀ s o, reg.resolve t ≠ some (.bitSequence s o) := fun s o h => h3 ⟨s, o, h⟩
    rcases vals_single_or c with ⟨v, hv⟩ | hv
    · obtain ⟨ok, n, h⟩ := trial_exists reg cc v t
      exact ⟨_, _, .other hs h1 h2 h3 hv h⟩
    · exact ⟨_, _, .otherLength hs h1 h2 h3 hv⟩

theorem callsBy_exists (reg : Reg Id) (cc : Bool) (v : Value Γ) (t : Id) : ∃ ok n, CallsBy reg cc v t ok n := by
  obtain ⟨d, x⟩ := v
  have leaf : (Value.mk d x).fields? = none → ∃ ok n, CallsBy reg cc (.mk d x) t ok n := by
    intro hf
    obtain ⟨ok, n, -, h⟩ := trial_exists reg cc (.mk d x) t
    exact ⟨ok, 1, .leaf hf h⟩
  cases d with
  | primitive p => exact leaf rfl
  | bitSequence b => exact leaf rfl
  | variant c =>
    obtain ⟨s, c⟩ := c
    have hi := findSingle_innermost reg t
    generalize (findSingle reg t).1 = u at hi
    by_cases h : ∃ ds, reg.resolve u = some (.variant ds) ∧ ∃ d ∈ ds, d.name = s
    · obtain ⟨ds, h1, d, hd, hn⟩ := h
      cases hf : ds.find? (fun e => e.name == s) with
      | none => exact (List.find?_eq_none.1 hf d hd (by simp [hn])).elim
      | some e =>
        obtain ⟨he, a, b, rfl, ha⟩ := List.find?_eq_some_iff_append.1 hf
        obtain ⟨ok, n, h⟩ := fieldTries_exists reg cc c e.fields
        exact ⟨_, _, .variant hi h1 (by simpa using he) (by simpa using ha) h⟩
    · exact ⟨_, _, .noVariant hi (fun ds h1 d hd hn => h ⟨ds, h1, d, hd, hn⟩)⟩
  | composite c =>
    obtain ⟨ok, n, h⟩ := attempt_exists reg cc c t
    cases ok with
    | true => exact ⟨_, _, .direct h⟩
    | false =>
      by_cases hs : ∃ w, SingleEntry reg t w
      · obtain ⟨w, hs⟩ := hs
        have hi := findSingle_innermost reg t
        generalize (findSingle reg t).1 = u at hi
        obtain ⟨ok, m, h2⟩ := attempt_exists reg cc c u
        cases ok with
        | true => exact ⟨_, _, .inner h hs hi h2⟩
        | false =>
          rcases vals_single_or c with ⟨v, hv⟩ | hv
          · obtain ⟨ok, k, h3⟩ := trial_exists reg cc v u
            exact ⟨_, _, .innerAlone h hs hi h2 hv h3⟩
          · exact ⟨_, _, .innerStuck h hs hi h2 hv⟩
      · have hs : ∀ w, ¬ SingleEntry reg t w := fun w h => hs ⟨w, h⟩
        rcases vals_single_or c with ⟨v, hv⟩ | hv
        · obtain ⟨ok, k, h3⟩ := trial_exists reg cc v t
          exact ⟨_, _, .alone h hs hv h3⟩
        · exact ⟨_, _, .stuck h hs hv⟩

end SV
