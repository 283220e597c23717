import Verif.Spec.EncCalls
import Verif.Proofs.EncodeTyped
/-
The encoder with a counter: the results are those of the encoder; bounds.
-/
namespace SV

variable {Id Γ : Type}

/-! ### The same results -/

/-- Without the counter. -/
def EncC.erase (a : EncC Id) : EncM Id := fun out => (a out).1

theorem erase_leaf (a : EncM Id) : (EncC.leaf a).erase = a := rfl

theorem erase_seq (a b : EncC Id) : (EncC.seq a b).erase = EncM.seq a.erase b.erase := by
  funext out
  unfold EncC.erase EncC.seq EncM.seq
  dsimp only
  rcases a out with ⟨⟨_ | _, o⟩, n⟩ <;> rfl

theorem erase_mapErr (f : EErr Id → EErr Id) (a : EncC Id) : (EncC.mapErr f a).erase = EncM.mapErr f a.erase := by
  funext out
  unfold EncC.erase EncC.mapErr EncM.mapErr
  dsimp only
  rcases a out with ⟨⟨_ | _, o⟩, n⟩ <;> rfl

theorem erase_enc (c : CChild Id) (t : Id) : (c.enc t).erase = c.erase.enc t := rfl

theorem erase_items (t : Id) (nm : Bool) (k : Nat) (cs : List (CChild Id)) : (encItemsC t nm k cs).erase = encItems t nm k (cs.map CChild.erase) := by
  induction cs generalizing k with
  | nil => rfl
  | cons c cs ih =>
    rw [encItemsC, List.map_cons, encItems, erase_seq, erase_mapErr, ih]
    rfl

theorem erase_byName (cs : List (CChild Id)) (fs : List (Field Id)) : (encByNameC cs fs).erase = encByName (cs.map CChild.erase) fs := by
  induction fs with
  | nil => rfl
  | cons f fs ih =>
    rw [encByNameC, encByName, ← List.map_reverse, List.find?_map]
    have : ((fun c : Child Id => c.name.getD [] == f.name.getD []) ∘ CChild.erase) = (fun c : CChild Id => c.name.getD [] == f.name.getD []) := rfl
    rw [this]
    cases cs.reverse.find? (fun c => c.name.getD [] == f.name.getD []) with
    | none => rfl
    | some c => simp only [Option.map_some]; rw [erase_seq, erase_mapErr, ih]; rfl

theorem erase_byOrder (k : Nat) (cs : List (CChild Id)) (fs : List (Field Id)) : (encByOrderC k cs fs).erase = encByOrder k (cs.map CChild.erase) fs := by
  induction cs generalizing k fs with
  | nil => cases fs <;> rfl
  | cons c cs ih =>
    cases fs with
    | nil => rfl
    | cons f fs =>
      rw [encByOrderC, List.map_cons, encByOrder, erase_seq, erase_mapErr, ih]
      rfl

theorem erase_any (cs : List (CChild Id)) : (cs.map CChild.erase).any (fun c => c.name.isSome) = cs.any (fun c => c.name.isSome) := by
  rw [List.any_map]; rfl

theorem erase_fieldsTo (cs : List (CChild Id)) (fs : List (Field Id)) : (encFieldsToC cs fs).erase = encFieldsTo (cs.map CChild.erase) fs := by
  unfold encFieldsToC encFieldsTo
  rw [erase_any, List.length_map]
  split
  · exact erase_byName cs fs
  · split
    · rfl
    · exact erase_byOrder 0 cs fs

theorem erase_asType (reg : Reg Id) (cs : List (CChild Id)) (t : Id) :
    (encCompositeAsTypeC reg cs t).erase = encCompositeAsType reg (cs.map CChild.erase) t := by
  unfold encCompositeAsTypeC encCompositeAsType
  rw [erase_any]
  cases reg.resolve (skip reg t) with
  | none => rfl
  | some d =>
    cases d with
    | composite fs =>
      cases cs.any (fun c => c.name.isSome) with
      | false =>
        match cs with
        | [] => exact erase_fieldsTo _ fs
        | [c] => rfl
        | c :: c' :: cs => exact erase_fieldsTo _ fs
      | true => exact erase_fieldsTo _ fs
    | tuple ts =>
      match cs with
      | [] => exact erase_fieldsTo _ _
      | [c] => rfl
      | c :: c' :: cs => exact erase_fieldsTo _ _
    | _ =>
      match cs with
      | [] => rfl
      | [c] => rfl
      | c :: c' :: cs => rfl

theorem erase_do (reg : Reg Id) (cs : List (CChild Id)) (t : Id) : (doEncodeCompositeC reg cs t).erase = doEncodeComposite reg (cs.map CChild.erase) t := by
  unfold doEncodeCompositeC doEncodeComposite
  rw [List.length_map]
  cases reg.resolve t with
  | none =>
    match cs with
    | [] => rfl
    | [c] => rfl
    | c :: c' :: cs => rfl
  | some d =>
    cases d with
    | composite fs => exact erase_asType reg cs t
    | tuple fs => exact erase_asType reg cs t
    | sequence u => simp only; rw [erase_seq, erase_items]; rfl
    | array u n =>
      simp only
      split
      · rfl
      · exact erase_items _ _ _ _
    | bitSequence s o =>
      simp only
      cases encBools 0 (cs.map CChild.erase) <;> rfl
    | _ =>
      match cs with
      | [] => rfl
      | [c] => rfl
      | c :: c' :: cs => rfl

theorem erase_last (cs : List (CChild Id)) (t : Id) (e : EErr Id) : (encLastC cs t e).erase = encLast (cs.map CChild.erase) t e := by
  funext out
  match cs with
  | [] => rfl
  | [c] =>
    unfold EncC.erase encLastC encLast
    simp only [List.map_cons, List.map_nil, CChild.erase]
    rcases c.enc t [] with ⟨⟨_ | _, o⟩, n⟩ <;> rfl
  | c :: c' :: cs => rfl

theorem erase_composite (reg : Reg Id) (cs : List (CChild Id)) (t : Id) : (encCompositeC reg cs t).erase = encComposite reg (cs.map CChild.erase) t := by
  funext out
  have h1 := fun t => congrFun (erase_do reg cs t) []
  have h2 := fun t e => congrFun (erase_last cs t e) out
  unfold EncC.erase encCompositeC encComposite
  unfold EncC.erase at h1 h2
  rw [← h1 t]
  rcases doEncodeCompositeC reg cs t [] with ⟨⟨_ | _, o⟩, n⟩
  · rcases findSingle reg t with ⟨inner, _ | _⟩
    · exact h2 _ _
    · simp only
      rw [← h1 inner]
      rcases doEncodeCompositeC reg cs inner [] with ⟨⟨_ | _, o'⟩, m⟩
      · exact h2 _ _
      · rfl
  · rfl

theorem erase_variant (reg : Reg Id) (name : Str) (cs : List (CChild Id)) (t : Id) :
    (encVariantC reg name cs t).erase = encVariant reg name (cs.map CChild.erase) t := by
  unfold encVariantC encVariant
  cases reg.resolve (findSingle reg t).1 with
  | none => rfl
  | some d =>
    cases d with
    | variant ds =>
      simp only
      cases ds.find? (fun d => d.name == name) with
      | none => rfl
      | some d => simp only; rw [erase_seq, erase_fieldsTo]; rfl
    | _ => rfl

mutual
theorem erase_value (reg : Reg Id) (cc : Bool) : ∀ (v : Value Γ) (t : Id), (v.encodeC reg cc t).erase = v.encode reg cc t
  | .mk d _, t => by rw [Value.encode]; exact erase_def reg cc d t
theorem erase_def (reg : Reg Id) (cc : Bool) : ∀ (d : ValueDef Γ) (t : Id), (d.encodeC reg cc t).erase = d.encode reg cc t
  | .composite c, t => by rw [ValueDef.encode, ValueDef.encodeC, erase_composite, erase_comp]
  | .variant (.mk n c), t => by rw [ValueDef.encode, ValueDef.encodeC, erase_variant, erase_comp]
  | .primitive p, t => by rw [ValueDef.encode, ValueDef.encodeC]; rfl
  | .bitSequence b, t => by rw [ValueDef.encode, ValueDef.encodeC]; rfl
theorem erase_comp (reg : Reg Id) (cc : Bool) : ∀ (c : Composite Γ), (c.encChildrenC reg cc).map CChild.erase = c.encChildren reg cc
  | .named fs => by rw [Composite.encChildren, Composite.encChildrenC, erase_named]
  | .unnamed fs => by rw [Composite.encChildren, Composite.encChildrenC, erase_unnamed]
theorem erase_named (reg : Reg Id) (cc : Bool) : ∀ (c : List (Str × Value Γ)), (encNamedC reg cc c).map CChild.erase = encNamed reg cc c
  | [] => rfl
  | (k, v) :: r => by
    rw [encNamedC, encNamed, List.map_cons, erase_named reg cc r]
    congr 1
    unfold CChild.erase
    congr 1
    funext t
    exact erase_value reg cc v t
theorem erase_unnamed (reg : Reg Id) (cc : Bool) : ∀ (c : List (Value Γ)), (encUnnamedC reg cc c).map CChild.erase = encUnnamed reg cc c
  | [] => rfl
  | v :: r => by
    rw [encUnnamedC, encUnnamed, List.map_cons, erase_unnamed reg cc r]
    congr 1
    unfold CChild.erase
    congr 1
    funext t
    exact erase_value reg cc v t
end

/-! ### At most so many calls -/

/-- Never more than `n` calls. -/
def AtMost (a : EncC Id) (n : Nat) : Prop := ∀ out, (a out).2 ≤ n

theorem atMost_leaf (a : EncM Id) (n : Nat) : AtMost (.leaf a) n := fun _ => Nat.zero_le _

theorem atMost_seq {a b : EncC Id} {n m : Nat} (ha : AtMost a n) (hb : AtMost b m) : AtMost (.seq a b) (n + m) := by
  intro out
  have h := ha out
  unfold EncC.seq
  rcases ho : a out with ⟨⟨_ | _, o⟩, k⟩ <;> rw [ho] at h <;> simp only at h ⊢
  · omega
  · have := hb o; omega

theorem atMost_mapErr {f : EErr Id → EErr Id} {a : EncC Id} {n : Nat} (ha : AtMost a n) : AtMost (.mapErr f a) n := by
  intro out
  have h := ha out
  unfold EncC.mapErr
  rcases ho : a out with ⟨⟨_ | _, o⟩, k⟩ <;> rw [ho] at h <;> exact h

theorem AtMost.mono {a : EncC Id} {n m : Nat} (ha : AtMost a n) (h : n ≤ m) : AtMost a m := fun out => Nat.le_trans (ha out) h

/-- The sum of `b` over a list. -/
def total {A : Type} (b : A → Nat) : List A → Nat
  | [] => 0
  | a :: l => b a + total b l

section
variable {b : CChild Id → Nat} {cs : List (CChild Id)}

theorem atMost_items (hb : ∀ c ∈ cs, ∀ t, AtMost (c.enc t) (b c)) (t : Id) (nm : Bool) (k : Nat) : AtMost (encItemsC t nm k cs) (total b cs) := by
  induction cs generalizing k with
  | nil => exact atMost_leaf _ _
  | cons c cs ih => exact atMost_seq (atMost_mapErr (hb c (by simp) t)) (ih (fun d hd => hb d (by simp [hd])) _)

theorem atMost_byOrder (hb : ∀ c ∈ cs, ∀ t, AtMost (c.enc t) (b c)) (k : Nat) (fs : List (Field Id)) : AtMost (encByOrderC k cs fs) (total b cs) := by
  induction cs generalizing k fs with
  | nil => cases fs <;> exact atMost_leaf _ _
  | cons c cs ih =>
    cases fs with
    | nil => exact atMost_leaf _ _
    | cons f fs => exact atMost_seq (atMost_mapErr (hb c (by simp) _)) (ih (fun d hd => hb d (by simp [hd])) _ _)

/-- The bound of the value that is found for a name. -/
def look (b : CChild Id → Nat) (l : List (CChild Id)) (n : Str) : Nat :=
  match l.find? (fun c => c.name.getD [] == n) with
  | some c => b c
  | none => 0

theorem total_zero {A : Type} [BEq A] [LawfulBEq A] {a : A} (x : Nat) : ∀ {l : List A}, a ∉ l → total (fun k => if a == k then x else 0) l = 0
  | [], _ => rfl
  | k :: l, h => by
    have hy : a ≠ k := fun e => h (by simp [e])
    rw [total, total_zero x (fun e => h (by simp [e]))]
    simp [hy]

theorem total_once {A : Type} [BEq A] [LawfulBEq A] (a : A) (x : Nat) : ∀ {l : List A}, l.Nodup → total (fun k => if a == k then x else 0) l ≤ x
  | [], _ => Nat.zero_le _
  | k :: l, h => by
    rw [List.nodup_cons] at h
    rw [total]
    by_cases hk : a = k
    · subst hk
      have : total (fun k => if a == k then x else 0) l = 0 := total_zero x h.1
      rw [this]; simp
    · have := total_once a x h.2
      simp only [beq_iff_eq, hk, if_false]
      simpa using this

theorem total_le {A : Type} {f g : A → Nat} (h : ∀ a, f a ≤ g a) : ∀ l, total f l ≤ total g l
  | [] => Nat.le_refl _
  | a :: l => Nat.add_le_add (h a) (total_le h l)

theorem total_add {A : Type} (f g : A → Nat) : ∀ l, total (fun a => f a + g a) l = total f l + total g l
  | [] => rfl
  | a :: l => by rw [total, total, total, total_add f g l]; omega

theorem total_look {ks : List Str} (hk : ks.Nodup) : ∀ l : List (CChild Id), total (look b l) ks ≤ total b l
  | [] => by
    have : ∀ l : List Str, total (look b ([] : List (CChild Id))) l = 0 := by
      intro l; induction l with
      | nil => rfl
      | cons y l ih => rw [total, ih]; rfl
    rw [this]; exact Nat.zero_le _
  | c :: l => by
    have h : ∀ k, look b (c :: l) k ≤ (fun k => (if c.name.getD [] == k then b c else 0) + look b l k) k := by
      intro k
      unfold look
      rw [List.find?_cons]
      by_cases hk : c.name.getD [] = k
      · simp [hk]
      · have : (c.name.getD [] == k) = false := by simpa using hk
        simp [this]
    refine Nat.le_trans (total_le h ks) ?_
    rw [total_add, total]
    exact Nat.add_le_add (total_once _ _ hk) (total_look hk l)

theorem total_append {A : Type} (f : A → Nat) : ∀ l m, total f (l ++ m) = total f l + total f m
  | [], m => by simp [total]
  | a :: l, m => by rw [List.cons_append, total, total, total_append f l m]; omega

theorem total_reverse {A : Type} (f : A → Nat) : ∀ l, total f l.reverse = total f l
  | [] => rfl
  | a :: l => by rw [List.reverse_cons, total_append, total_reverse f l, total, total, total]; omega

theorem atMost_byName_look (hb : ∀ c ∈ cs, ∀ t, AtMost (c.enc t) (b c)) (fs : List (Field Id)) :
    AtMost (encByNameC cs fs) (total (look b cs.reverse) (fs.map (fun f => f.name.getD []))) := by
  induction fs with
  | nil => exact atMost_leaf _ _
  | cons f fs ih =>
    rw [encByNameC, List.map_cons, total]
    cases hf : cs.reverse.find? (fun c => c.name.getD [] == f.name.getD []) with
    | none => exact atMost_leaf _ _
    | some c =>
      refine atMost_seq (atMost_mapErr ?_) ih
      have hc : c ∈ cs := by simpa using List.mem_of_find?_eq_some hf
      have : look b cs.reverse (f.name.getD []) = b c := by unfold look; rw [hf]
      rw [this]
      exact hb c hc _

theorem atMost_fieldsTo (hb : ∀ c ∈ cs, ∀ t, AtMost (c.enc t) (b c)) {fs : List (Field Id)} (hf : Apart fs) : AtMost (encFieldsToC cs fs) (total b cs) := by
  unfold encFieldsToC
  split
  · rename_i h
    rcases hf with hf | hf
    · refine (atMost_byName_look hb fs).mono ?_
      rw [← total_reverse b cs]
      exact total_look hf _
    · rw [Bool.and_eq_true, List.any_eq_true] at h
      obtain ⟨⟨f, hm, h⟩, -⟩ := h
      rw [hf f hm] at h
      cases h
  · split
    · exact atMost_leaf _ _
    · exact atMost_byOrder hb 0 fs

theorem atMost_one {c : CChild Id} {cs : List (CChild Id)} (hb : ∀ c ∈ cs, ∀ t, AtMost (c.enc t) (b c)) (h : cs = [c]) (t : Id) : AtMost (c.enc t) (total b cs) := by
  subst h
  exact (hb c (by simp) t).mono (by simp [total])

theorem atMost_asType {reg : Reg Id} (hr : NamesApart reg) (hb : ∀ c ∈ cs, ∀ t, AtMost (c.enc t) (b c)) (t : Id) :
    AtMost (encCompositeAsTypeC reg cs t) (total b cs) := by
  unfold encCompositeAsTypeC
  split
  · exact atMost_leaf _ _
  · rename_i fs h
    have hf : Apart fs := hr.1 _ _ h
    split
    · exact atMost_one hb rfl _
    · exact atMost_fieldsTo hb hf
  · split
    · exact atMost_one hb rfl _
    · exact atMost_fieldsTo hb (.inr (by simp))
  · split
    · exact atMost_one hb rfl _
    · exact atMost_leaf _ _

theorem atMost_do {reg : Reg Id} (hr : NamesApart reg) (hb : ∀ c ∈ cs, ∀ t, AtMost (c.enc t) (b c)) (t : Id) :
    AtMost (doEncodeCompositeC reg cs t) (total b cs) := by
  unfold doEncodeCompositeC
  split
  · exact atMost_asType hr hb t
  · exact atMost_asType hr hb t
  · exact (atMost_seq (atMost_leaf _ 0) (atMost_items hb _ _ _)).mono (by omega)
  · split
    · exact atMost_leaf _ _
    · exact atMost_items hb _ _ _
  · split <;> exact atMost_leaf _ _
  · split
    · exact atMost_one hb rfl _
    · exact atMost_leaf _ _

theorem atMost_last (hb : ∀ c ∈ cs, ∀ t, AtMost (c.enc t) (b c)) (t : Id) (e : EErr Id) : AtMost (encLastC cs t e) (total b cs) := by
  intro out
  unfold encLastC
  split
  · rename_i c
    have := atMost_one hb rfl t []
    rcases ho : c.enc t [] with ⟨⟨_ | _, o⟩, k⟩ <;> rw [ho] at this <;> exact this
  · exact Nat.zero_le _

theorem atMost_composite {reg : Reg Id} (hr : NamesApart reg) (hb : ∀ c ∈ cs, ∀ t, AtMost (c.enc t) (b c)) (t : Id) :
    AtMost (encCompositeC reg cs t) (3 * total b cs) := by
  intro out
  have h1 := fun t => atMost_do hr hb t []
  have h2 := fun t e => atMost_last hb t e out
  unfold encCompositeC
  have h1t := h1 t
  rcases hx : doEncodeCompositeC reg cs t [] with ⟨⟨e | _, o⟩, n⟩ <;> rw [hx] at h1t <;> simp only at h1t ⊢
  · rcases findSingle reg t with ⟨inner, _ | _⟩ <;> simp only
    · have := h2 t e
      omega
    · have h1i := h1 inner
      have := h2 inner e
      rcases hy : doEncodeCompositeC reg cs inner [] with ⟨⟨_ | _, o'⟩, m⟩ <;> rw [hy] at h1i <;> simp only at h1i ⊢ <;> omega
  · omega

theorem atMost_variant {reg : Reg Id} (hr : NamesApart reg) (hb : ∀ c ∈ cs, ∀ t, AtMost (c.enc t) (b c)) (n : Str) (t : Id) :
    AtMost (encVariantC reg n cs t) (total b cs) := by
  unfold encVariantC
  split
  · rename_i ds hd
    split
    · exact atMost_leaf _ _
    · rename_i d h
      exact (atMost_seq (atMost_leaf _ 0) (atMost_fieldsTo hb (hr.2 _ _ hd d (List.mem_of_find?_eq_some h)))).mono (by omega)
  · exact atMost_leaf _ _
  · exact atMost_leaf _ _
end

open Classical in
/-- The least bound on the calls for a value at any type. -/
noncomputable def worst (c : CChild Id) : Nat := if h : ∃ n, ∀ t, AtMost (c.enc t) n then Nat.find h else 0

theorem worst_spec {c : CChild Id} {n : Nat} (h : ∀ t, AtMost (c.enc t) n) : (∀ t, AtMost (c.enc t) (worst c)) ∧ worst c ≤ n := by
  classical
  have h' : ∃ n, ∀ t, AtMost (c.enc t) n := ⟨n, h⟩
  unfold worst
  rw [dif_pos h']
  exact ⟨Nat.find_spec h', Nat.find_min' h' h⟩

theorem deep_children {v : Value Γ} {d : Nat} (h : ∀ n, Deep v n → n ≤ d + 1) : ∀ w ∈ v.children, ∀ n, Deep w n → n ≤ d := by
  intro w hw n hn
  have := h _ (.inside hw hn)
  omega

theorem atMost_tick {d : ValueDef Γ} {reg : Reg Id} {cc : Bool} {x : Γ} {t : Id} {n : Nat} (h : AtMost (d.encodeC reg cc t) n) :
    AtMost ((Value.mk d x).encodeC reg cc t) (1 + n) := by
  intro out
  have := h out
  rw [Value.encodeC]
  dsimp only
  omega

/-- The calls for some values are bounded by `n` in all. -/
def Within (cs : List (CChild Id)) (n : Nat) : Prop := (∀ c ∈ cs, ∀ t, AtMost (c.enc t) (worst c)) ∧ 3 * total worst cs ≤ n

theorem Within.composite {reg : Reg Id} (hr : NamesApart reg) {cs : List (CChild Id)} {n d : Nat} (h : Within cs (n * 3 ^ d)) (t : Id) :
    AtMost (encCompositeC reg cs t) (n * 3 ^ d) := (atMost_composite hr h.1 t).mono h.2

theorem Within.variant {reg : Reg Id} (hr : NamesApart reg) {cs : List (CChild Id)} {n d : Nat} (h : Within cs (n * 3 ^ d)) (s : Str) (t : Id) :
    AtMost (encVariantC reg s cs t) (n * 3 ^ d) := (atMost_variant hr h.1 s t).mono (by have := h.2; omega)

theorem within_cons {c : CChild Id} {cs : List (CChild Id)} {n m d : Nat} (h : ∀ d', d = d' + 1 → ∀ t, AtMost (c.enc t) (n * 3 ^ d')) (hd : d ≠ 0)
    (hs : Within cs (m * 3 ^ d)) : Within (c :: cs) ((n + m) * 3 ^ d) := by
  cases d with
  | zero => exact (hd rfl).elim
  | succ d =>
    obtain ⟨h1, h2⟩ := worst_spec (h d rfl)
    refine ⟨?_, ?_⟩
    · intro e he
      rcases List.mem_cons.1 he with rfl | he
      · exact h1
      · exact hs.1 e he
    · have := hs.2
      rw [total, Nat.add_mul]
      rw [Nat.pow_succ] at this ⊢
      rw [← Nat.mul_assoc, ← Nat.mul_assoc] at *
      omega

theorem tick_le {n d : Nat} : 1 + n * 3 ^ d ≤ (1 + n) * 3 ^ d := by
  rw [Nat.add_mul]
  have := Nat.pow_pos (n := d) (show 0 < 3 by decide)
  omega

mutual
theorem atMost_value {reg : Reg Id} (hr : NamesApart reg) (cc : Bool) : ∀ (v : Value Γ) (d : Nat), (∀ n, Deep v n → n ≤ d + 1) → ∀ t,
    AtMost (v.encodeC reg cc t) (v.count * 3 ^ d)
  | .mk (.primitive p) x, d, _, t => by
    refine (atMost_tick (n := 0 * 3 ^ d) ?_).mono (by rw [Value.count]; exact tick_le)
    rw [ValueDef.encodeC]; exact atMost_leaf _ _
  | .mk (.bitSequence p) x, d, _, t => by
    refine (atMost_tick (n := 0 * 3 ^ d) ?_).mono (by rw [Value.count]; exact tick_le)
    rw [ValueDef.encodeC]; exact atMost_leaf _ _
  | .mk (.composite (.unnamed vs)) x, d, hd, t => by
    refine (atMost_tick (n := valuesCount vs * 3 ^ d) ?_).mono (by rw [Value.count]; exact tick_le)
    rw [ValueDef.encodeC, Composite.encChildrenC]
    exact (within_vals hr cc vs d (deep_children hd)).composite hr t
  | .mk (.composite (.named fs)) x, d, hd, t => by
    refine (atMost_tick (n := fieldsCount fs * 3 ^ d) ?_).mono (by rw [Value.count]; exact tick_le)
    rw [ValueDef.encodeC, Composite.encChildrenC]
    exact (within_fields hr cc fs d (fun p hp => deep_children hd p.2 (List.mem_map.2 ⟨p, hp, rfl⟩))).composite hr t
  | .mk (.variant (.mk s (.unnamed vs))) x, d, hd, t => by
    refine (atMost_tick (n := valuesCount vs * 3 ^ d) ?_).mono (by rw [Value.count]; exact tick_le)
    rw [ValueDef.encodeC, Composite.encChildrenC]
    exact (within_vals hr cc vs d (deep_children hd)).variant hr s t
  | .mk (.variant (.mk s (.named fs))) x, d, hd, t => by
    refine (atMost_tick (n := fieldsCount fs * 3 ^ d) ?_).mono (by rw [Value.count]; exact tick_le)
    rw [ValueDef.encodeC, Composite.encChildrenC]
    exact (within_fields hr cc fs d (fun p hp => deep_children hd p.2 (List.mem_map.2 ⟨p, hp, rfl⟩))).variant hr s t
theorem within_vals {reg : Reg Id} (hr : NamesApart reg) (cc : Bool) : ∀ (vs : List (Value Γ)) (d : Nat), (∀ v ∈ vs, ∀ n, Deep v n → n ≤ d) →
    Within (encUnnamedC reg cc vs) (valuesCount vs * 3 ^ d)
  | [], _, _ => by simp [encUnnamedC, total, Within]
  | v :: vs, d, h => by
    rw [encUnnamedC, valuesCount]
    refine within_cons (fun d' e t => atMost_value hr cc v d' (by rw [← e]; exact h v (by simp)) t) ?_ (within_vals hr cc vs d (fun w hw => h w (by simp [hw])))
    have := h v (by simp) 1 .here
    omega
theorem within_fields {reg : Reg Id} (hr : NamesApart reg) (cc : Bool) : ∀ (vs : List (Str × Value Γ)) (d : Nat), (∀ p ∈ vs, ∀ n, Deep p.2 n → n ≤ d) →
    Within (encNamedC reg cc vs) (fieldsCount vs * 3 ^ d)
  | [], _, _ => by simp [encNamedC, total, Within]
  | (s, v) :: vs, d, h => by
    rw [encNamedC, fieldsCount]
    refine within_cons (fun d' e t => atMost_value hr cc v d' (by rw [← e]; exact h (s, v) (by simp)) t) ?_
      (within_fields hr cc vs d (fun w hw => h w (by simp [hw])))
    have := h (s, v) (by simp) 1 .here
    omega
end

end SV
