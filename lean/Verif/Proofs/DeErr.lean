import Verif.Spec.DeFault
/-
The readings with errors agree with those without.
-/
namespace SV

theorem toOption_ok {A : Type} {x : Except DeErr A} {a : A} : x.toOption = some a ↔ x = .ok a := by
  cases x <;> simp [Except.toOption]

theorem toOption_none {A : Type} {x : Except DeErr A} : x.toOption = none ↔ ∃ e, x = .error e := by
  cases x <;> simp [Except.toOption]

@[simp] theorem toOption_mk_ok {A : Type} (a : A) : (Except.ok a : Except DeErr A).toOption = some a := rfl
@[simp] theorem toOption_mk_error {A : Type} (e : DeErr) : (Except.error e : Except DeErr A).toOption = none := rfl
@[simp] theorem toOption_map {A B : Type} (f : A → B) (x : Except DeErr A) : (x.map f).toOption = x.toOption.map f := by cases x <;> rfl

theorem deStringE_agree (d : Der) : (deStringE d).toOption = deString d := by
  unfold deStringE deString
  cases d.visit .str <;> try rfl
  next bs => simp only; cases fromUtf8 bs <;> rfl

theorem deBoolE_agree (d : Der) : (deBoolE d).toOption = deBool d := by
  unfold deBoolE deBool
  cases d.visit .bool <;> rfl

theorem deNumE_agree (t : NumTy) (d : Der) : (deNumE t d).toOption = deNum t d := by
  unfold deNumE deNum acceptNum
  cases d.visit (.num t) <;> try rfl
  next n =>
    simp only
    split
    · rfl
    · split
      · rfl
      · cases Num.ofInt? t n.val <;> rfl

theorem allOfE_agree {A B : Type} {f : A → Except DeErr B} {g : A → Option B} {l : List A} (h : ∀ a ∈ l, (f a).toOption = g a) :
    (allOfE f l).toOption = allOf g l := by
  induction l with
  | nil => rfl
  | cons a l ih =>
    have h1 := h a (by simp)
    have h2 := ih (fun b hb => h b (by simp [hb]))
    unfold allOfE allOf
    rw [← h1, ← h2]
    cases f a <;> simp
    cases allOfE f l <;> simp

theorem deVecE_agree {A : Type} {f : Der → Except DeErr A} {g : Der → Option A} (h : ∀ a, (f a).toOption = g a) (d : Der) :
    (deVecE f d).toOption = deVec g d := by
  unfold deVecE deVec
  cases d.visit .seq <;> try rfl
  exact allOfE_agree (fun a _ => h a)

mutual
theorem deValueE_agree : ∀ d : Der, (deValueE d).toOption = deValue d
  | .mk f => by
    rw [deValueE, deValue, ← deDefE_agree (f .any)]
    cases deDefE (f .any) <;> rfl
termination_by structural d => d
theorem deDefE_agree : ∀ r : Reply, (deDefE r).toOption = deDef r
  | .bool _ => rfl
  | .num _ => rfl
  | .char _ => rfl
  | .str _ => rfl
  | .bytes _ => rfl
  | .unit => rfl
  | .none => rfl
  | .some d => by rw [deDefE, deDef, ← deValueE_agree d]; cases deValueE d <;> rfl
  | .newtype d => by rw [deDefE, deDef, ← deValueE_agree d]; cases deValueE d <;> rfl
  | .seq _ l => by rw [deDefE, deDef, ← deValuesE_agree l]; cases deValuesE l <;> rfl
  | .map _ [] => rfl
  | .map closed ((k, v) :: r) => by
    rw [deDefE, deDef, ← deStringE_agree k]
    cases deStringE k with
    | error e => rfl
    | ok key =>
      simp only [toOption_mk_ok]
      split
      · rw [← deVecE_agree deBoolE_agree v]
        cases deVecE deBoolE v with
        | error e => rfl
        | ok bs => simp only [toOption_mk_ok]; split <;> rfl
      · rw [← deValueE_agree v, ← deEntriesE_agree r]
        cases deValueE v with
        | error e => rfl
        | ok w => simp only [toOption_mk_ok]; cases deEntriesE r <;> rfl
  | .enum name newtype _ => by
    rw [deDefE, deDef, ← deStringE_agree name, ← deCompositeE_agree newtype]
    cases deStringE name with
    | error e => rfl
    | ok n => simp only [toOption_mk_ok]; cases deCompositeE newtype <;> rfl
  | .float => rfl
  | .self => rfl
  | .error _ => rfl
theorem deCompositeE_agree : ∀ d : Der, (deCompositeE d).toOption = deComposite d
  | .mk f => by rw [deCompositeE, deComposite, ← deCompE_agree (f .any)]
theorem deCompE_agree : ∀ r : Reply, (deCompE r).toOption = deComp r
  | .bytes _ => rfl
  | .unit => rfl
  | .newtype d => by rw [deCompE, deComp, ← deCompositeE_agree d]
  | .seq _ l => by rw [deCompE, deComp, ← deValuesE_agree l]; cases deValuesE l <;> rfl
  | .map _ l => by rw [deCompE, deComp, ← deEntriesE_agree l]; cases deEntriesE l <;> rfl
  | .bool _ => rfl
  | .num _ => rfl
  | .float => rfl
  | .char _ => rfl
  | .str _ => rfl
  | .none => rfl
  | .some _ => rfl
  | .self => rfl
  | .enum _ _ _ => rfl
  | .error _ => rfl
theorem deValuesE_agree : ∀ l : List Der, (deValuesE l).toOption = deValues l
  | [] => rfl
  | d :: r => by
    rw [deValuesE, deValues, ← deValueE_agree d, ← deValuesE_agree r]
    cases deValueE d with
    | error e => rfl
    | ok v => simp only [toOption_mk_ok]; cases deValuesE r <;> rfl
theorem deEntriesE_agree : ∀ l : List (Der × Der), (deEntriesE l).toOption = deEntries l
  | [] => rfl
  | (k, d) :: r => by
    rw [deEntriesE, deEntries, ← deStringE_agree k, ← deValueE_agree d, ← deEntriesE_agree r]
    cases deStringE k with
    | error e => rfl
    | ok key =>
      simp only [toOption_mk_ok]
      cases deValueE d with
      | error e => rfl
      | ok v => simp only [toOption_mk_ok]; cases deEntriesE r <;> rfl
end

theorem variantLoopE_agree (l : List (Der × Der)) (n : Option Str) (c : Option (Composite Unit)) :
    (variantLoopE l n c).toOption = variantLoop l n c := by
  induction l generalizing n c with
  | nil => rfl
  | cons p l ih =>
    obtain ⟨k, d⟩ := p
    rw [variantLoopE, variantLoop, ← deStringE_agree k]
    cases deStringE k with
    | error e => rfl
    | ok key =>
      simp only [toOption_mk_ok]
      split
      · rw [← deStringE_agree d]
        cases deStringE d with
        | error e => rfl
        | ok s => simp only [toOption_mk_ok]; exact ih _ _
      · split
        · rw [← deCompositeE_agree d]
          cases deCompositeE d with
          | error e => rfl
          | ok s => simp only [toOption_mk_ok]; exact ih _ _
        · rfl

theorem deVariantE_agree (d : Der) : (deVariantE d).toOption = deVariant d := by
  unfold deVariantE deVariant
  cases d.visit .any <;> try rfl
  · next d => simp only; rw [← deValueE_agree d]; cases deValueE d <;> rfl
  · next l =>
    simp only; rw [← variantLoopE_agree l]
    cases variantLoopE l none none with
    | error e => rfl
    | ok x => obtain ⟨n, c⟩ := x; cases n <;> cases c <;> rfl
  · next name newtype _ =>
    simp only
    rw [← deStringE_agree name, ← deCompositeE_agree newtype]
    cases deStringE name with
    | error e => rfl
    | ok n => simp only [toOption_mk_ok]; cases deCompositeE newtype <;> rfl

theorem dePrimitiveE_agree (d : Der) : (dePrimitiveE d).toOption = dePrimitive d := by
  unfold dePrimitiveE dePrimitive
  cases d.visit .any <;> try rfl
  · next bs => simp only; cases bytes32? bs <;> rfl
  · next l =>
    simp only; rw [← allOfE_agree (fun a _ => deNumE_agree .u8 a)]
    cases allOfE (deNumE .u8) l with
    | error e => rfl
    | ok ns => simp only [toOption_mk_ok]; cases bytes32? (ns.map Num.toU8) <;> rfl

mutual
theorem deIgnoredE_agree : ∀ d : Der, (deIgnoredE d).isOk = deIgnored d
  | .mk f => by rw [deIgnoredE, deIgnored, ← deIgnoredRE_agree]
termination_by structural d => d
theorem deIgnoredRE_agree : ∀ r : Reply, (deIgnoredRE r).isOk = deIgnoredR r
  | .some d => by rw [deIgnoredRE, deIgnoredR, ← deIgnoredE_agree]
  | .newtype d => by rw [deIgnoredRE, deIgnoredR, ← deIgnoredE_agree]
  | .seq _ l => by rw [deIgnoredRE, deIgnoredR, ← deIgnoredLE_agree]
  | .map _ l => by rw [deIgnoredRE, deIgnoredR, ← deIgnoredME_agree]
  | .enum n d _ => by
    rw [deIgnoredRE, deIgnoredR, ← deIgnoredE_agree n, ← deIgnoredE_agree d]
    cases deIgnoredE n <;> simp [Except.isOk, Except.toBool]
  | .self => rfl
  | .error _ => rfl
  | .bool _ => rfl
  | .num _ => rfl
  | .float => rfl
  | .char _ => rfl
  | .str _ => rfl
  | .bytes _ => rfl
  | .unit => rfl
  | .none => rfl
theorem deIgnoredLE_agree : ∀ l : List Der, (deIgnoredLE l).isOk = deIgnoredL l
  | [] => rfl
  | d :: r => by
    rw [deIgnoredLE, deIgnoredL, ← deIgnoredE_agree d, ← deIgnoredLE_agree r]
    cases deIgnoredE d <;> simp [Except.isOk, Except.toBool]
theorem deIgnoredME_agree : ∀ l : List (Der × Der), (deIgnoredME l).isOk = deIgnoredM l
  | [] => rfl
  | (k, v) :: r => by
    rw [deIgnoredME, deIgnoredM, ← deIgnoredE_agree k, ← deIgnoredE_agree v, ← deIgnoredME_agree r]
    cases deIgnoredE k <;> simp [Except.isOk, Except.toBool]
    cases deIgnoredE v <;> simp
end

theorem deIdentE_agree (d : Der) : (deIdentE d).toOption = deIdent d := by
  unfold deIdentE deIdent
  cases d.visit .ident <;> rfl

theorem deCharE_agree (d : Der) : (deCharE d).toOption = deChar d := by
  unfold deCharE deChar
  cases d.visit .char <;> try rfl
  next s =>
    match s with
    | [] => rfl
    | [c] => rfl
    | _ :: _ :: _ => rfl

theorem deBytesE_agree (d : Der) : (deBytesE d).toOption = deBytes d := by
  unfold deBytesE deBytes
  cases d.visit .bytes <;> try rfl
  next l =>
    simp only; rw [← allOfE_agree (fun a _ => deNumE_agree .u8 a)]
    cases allOfE (deNumE .u8) l <;> rfl

theorem deMapE_agree {key : Der → Except DeErr Str} {key' : Der → Option Str} {f : Der → Except DeErr Dat} {g : Der → Option Dat}
    (hk : ∀ a, (key a).toOption = key' a) (hf : ∀ a, (f a).toOption = g a) (l : List (Der × Der)) (acc : List (Str × Dat)) :
    (deMapE key f l acc).toOption = deMap key' g l acc := by
  induction l generalizing acc with
  | nil => rfl
  | cons p l ih =>
    obtain ⟨k, v⟩ := p
    rw [deMapE, deMap, ← hk, ← hf]
    cases key k with
    | error e => rfl
    | ok s =>
      simp only [toOption_mk_ok]
      cases f v with
      | error e => rfl
      | ok d => simp only [toOption_mk_ok]; exact ih _

/-! ### Structs -/

/-- What the loop over the entries of a struct does when there is no error. -/
inductive LoopRel (field : Str → Der → Option (Except DeErr Dat)) : List (Str × Der) → List (Str × Dat) → List (Str × Dat) → Prop
  | done (acc) : LoopRel field [] acc acc
  | skip {n v es acc acc'} : field n v = none → deIgnored v = true → LoopRel field es acc acc' → LoopRel field ((n, v) :: es) acc acc'
  | take {n v es acc acc' d} : field n v = some (.ok d) → n ∉ acc.map (fun p => p.1) → LoopRel field es (acc ++ [(n, d)]) acc' →
      LoopRel field ((n, v) :: es) acc acc'

theorem isOk_iff {A : Type} {x : Except DeErr A} : x.isOk = true ↔ ∃ a, x = .ok a := by
  cases x <;> simp [Except.isOk, Except.toBool]

theorem structLoop_ok {field : Str → Der → Option (Except DeErr Dat)} {l : List (Der × Der)} {acc acc' : List (Str × Dat)} :
    structLoop field l acc = .ok acc' ↔ ∃ es, identKeys l = some es ∧ LoopRel field es acc acc' := by
  induction l generalizing acc with
  | nil =>
    rw [structLoop, identKeys]
    constructor
    · intro h; cases h; exact ⟨[], rfl, .done _⟩
    · rintro ⟨es, h, r⟩; cases h; cases r; rfl
  | cons p l ih =>
    obtain ⟨k, v⟩ := p
    rw [structLoop, identKeys, ← deIdentE_agree k]
    cases hk : deIdentE k with
    | error e => simp
    | ok n =>
      simp only [toOption_mk_ok]
      cases hf : field n v with
      | none =>
        simp only
        have hi := deIgnoredE_agree v
        cases hv : deIgnoredE v with
        | error e =>
          rw [hv] at hi
          simp only [reduceCtorEq, false_iff]
          rintro ⟨es, h, r⟩
          cases hl : identKeys l with
          | none => rw [hl] at h; cases h
          | some es' =>
            rw [hl] at h; cases h
            cases r with
            | skip _ h2 _ => rw [h2] at hi; cases hi
            | take h1 _ _ => rw [hf] at h1; cases h1
        | ok u =>
          rw [hv] at hi
          simp only [ih]
          constructor
          · rintro ⟨es, h, r⟩; rw [h]; exact ⟨_, rfl, .skip hf hi.symm r⟩
          · rintro ⟨es, h, r⟩
            cases hl : identKeys l with
            | none => rw [hl] at h; cases h
            | some es' =>
              rw [hl] at h; cases h
              cases r with
              | skip _ _ r => exact ⟨_, rfl, r⟩
              | take h1 _ _ => rw [hf] at h1; cases h1
      | some x =>
        simp only
        split
        · next hm =>
          simp only [reduceCtorEq, false_iff]
          rintro ⟨es, h, r⟩
          cases hl : identKeys l with
          | none => rw [hl] at h; cases h
          | some es' =>
            rw [hl] at h; cases h
            cases r with
            | skip h1 _ _ => rw [hf] at h1; cases h1
            | take _ h2 _ => exact h2 hm
        · next hm =>
          cases x with
          | error e =>
            simp only [reduceCtorEq, false_iff]
            rintro ⟨es, h, r⟩
            cases hl : identKeys l with
            | none => rw [hl] at h; cases h
            | some es' =>
              rw [hl] at h; cases h
              cases r with
              | skip h1 _ _ => rw [hf] at h1; cases h1
              | take h1 _ _ => rw [hf] at h1; cases h1
          | ok d =>
            simp only [ih]
            constructor
            · rintro ⟨es, h, r⟩; rw [h]; exact ⟨_, rfl, .take hf hm r⟩
            · rintro ⟨es, h, r⟩
              cases hl : identKeys l with
              | none => rw [hl] at h; cases h
              | some es' =>
                rw [hl] at h; cases h
                cases r with
                | skip h1 _ _ => rw [hf] at h1; cases h1
                | take h1 _ r => rw [hf] at h1; cases h1; exact ⟨_, rfl, r⟩

theorem got_append {n : Str} {acc : List (Str × Dat)} {m : Str} {d : Dat} :
    got n (acc ++ [(m, d)]) = match got n acc with | some x => some x | none => if m = n then some d else none := by
  unfold got
  rw [List.find?_append]
  cases acc.find? (fun p => decide (p.1 = n)) with
  | some p => simp
  | none => by_cases h : m = n <;> simp [h]

theorem got_none {n : Str} {acc : List (Str × Dat)} : got n acc = none ↔ n ∉ acc.map (fun p => p.1) := by
  unfold got
  rw [Option.map_eq_none_iff, List.find?_eq_none]
  simp only [decide_eq_true_eq, List.mem_map, not_exists, not_and]

/-- What the loop knows about the field `n` afterwards. -/
theorem loopRel_got {field : Str → Der → Option (Except DeErr Dat)} {es : List (Str × Der)} {acc acc' : List (Str × Dat)}
    (h : LoopRel field es acc acc') {n : Str} (hn : ∀ d, field n d ≠ none) :
    (es.filter (fun p => decide (p.1 = n)) = [] ∧ got n acc' = got n acc) ∨
    (∃ d x, es.filter (fun p => decide (p.1 = n)) = [(n, d)] ∧ got n acc = none ∧ field n d = some (.ok x) ∧ got n acc' = some x) := by
  induction h with
  | done acc => exact .inl ⟨rfl, rfl⟩
  | @skip m v es acc acc' h1 h2 _ ih =>
    have : m ≠ n := fun e => hn v (e ▸ h1)
    simpa [this] using ih
  | @take m v es acc acc' d h1 h2 _ ih =>
    by_cases e : m = n
    · subst e
      rw [← got_none] at h2
      rcases ih with ⟨i1, i2⟩ | ⟨d', x, i1, i2, -, -⟩
      · refine .inr ⟨v, d, by simp [i1], h2, h1, ?_⟩
        rw [i2, got_append, h2]; simp
      · rw [got_append, h2] at i2; simp at i2
    · have hg : got n (acc ++ [(m, d)]) = got n acc := by
        rw [got_append]; cases got n acc <;> simp [e]
      rw [hg] at ih
      simpa [e] using ih

theorem loopRel_exists {field : Str → Der → Option (Except DeErr Dat)} {es : List (Str × Der)} {acc : List (Str × Dat)}
    (hi : ∀ p ∈ es, field p.1 p.2 = none → deIgnored p.2 = true)
    (hf : ∀ p ∈ es, ∀ x, field p.1 p.2 = some x → ∃ d, x = .ok d)
    (hd : ∀ n d, field n d ≠ none → (∀ d', field n d' ≠ none) ∧ ((es.filter (fun p => decide (p.1 = n))).length + (if n ∈ acc.map (fun p => p.1) then 1 else 0) ≤ 1)) :
    ∃ acc', LoopRel field es acc acc' := by
  induction es generalizing acc with
  | nil => exact ⟨acc, .done _⟩
  | cons p es ih =>
    obtain ⟨m, v⟩ := p
    have hi' : ∀ p ∈ es, field p.1 p.2 = none → deIgnored p.2 = true := fun p hp => hi p (by simp [hp])
    have hf' : ∀ p ∈ es, ∀ x, field p.1 p.2 = some x → ∃ d, x = .ok d := fun p hp => hf p (by simp [hp])
    cases h : field m v with
    | none =>
      obtain ⟨acc', r⟩ := ih (acc := acc) hi' hf' (fun n d hn => by
        obtain ⟨a, b⟩ := hd n d hn
        have : m ≠ n := fun e => a v (e ▸ h)
        exact ⟨a, by simpa [this] using b⟩)
      exact ⟨acc', .skip h (hi (m, v) (by simp) h) r⟩
    | some x =>
      obtain ⟨d, rfl⟩ := hf (m, v) (by simp) x h
      have hm := (hd m v (by simp [h])).2
      have hm' : m ∉ acc.map (fun p => p.1) := by
        intro hc; rw [if_pos hc] at hm; simp at hm
      obtain ⟨acc', r⟩ := ih (acc := acc ++ [(m, d)]) hi' hf' (fun n d' hn => by
        obtain ⟨a, b⟩ := hd n d' hn
        refine ⟨a, ?_⟩
        by_cases e : m = n
        · subst e
          rw [if_neg hm'] at b
          simp only [List.filter_cons, decide_true, if_true, List.length_cons] at b
          have : (es.filter (fun p => decide (p.1 = m))).length = 0 := by omega
          rw [this]; split <;> omega
        · simp only [List.filter_cons, e, decide_false, Bool.false_eq_true, if_false] at b
          have : (n ∈ (acc ++ [(m, d)]).map (fun p => p.1)) ↔ n ∈ acc.map (fun p => p.1) := by
            simp only [List.map_append, List.map_cons, List.map_nil, List.mem_append, List.mem_singleton]
            exact ⟨fun h => h.elim id (fun h => absurd h.symm e), .inl⟩
          simp only [this]; exact b)
      exact ⟨acc', .take h hm' r⟩

theorem deFieldE_mem {fs : List (Str × Ty)} (nd : (fs.map (fun f => f.1)).Nodup) {n : Str} {t : Ty} (h : (n, t) ∈ fs) (d : Der) :
    Ty.deFieldE fs n d = some (t.deE d) := by
  induction fs with
  | nil => cases h
  | cons p fs ih =>
    obtain ⟨m, s⟩ := p
    rw [List.map_cons, List.nodup_cons] at nd
    rw [Ty.deFieldE]
    rcases List.mem_cons.1 h with h | h
    · cases h; simp
    · have : m ≠ n := by
        intro e
        exact nd.1 (List.mem_map.2 ⟨(n, t), h, e.symm⟩)
      rw [if_neg this]; exact ih nd.2 h

theorem deFieldE_none {fs : List (Str × Ty)} {n : Str} {d : Der} : Ty.deFieldE fs n d = none ↔ n ∉ fs.map (fun f => f.1) := by
  induction fs with
  | nil => simp [Ty.deFieldE]
  | cons p fs ih =>
    obtain ⟨m, s⟩ := p
    rw [Ty.deFieldE]
    by_cases e : m = n
    · simp [e]
    · rw [if_neg e, ih]
      simp only [List.map_cons, List.mem_cons, not_or]
      exact ⟨fun h => ⟨fun h' => e h'.symm, h⟩, fun h => h.2⟩

theorem pickField_some {n : Str} {es : List (Str × Der)} {e : Option Der} (h : pickField n es = some e) :
    (es.filter (fun p => decide (p.1 = n)) = [] ∧ e = none) ∨ ∃ d, es.filter (fun p => decide (p.1 = n)) = [(n, d)] ∧ e = some d := by
  unfold pickField at h
  split at h
  · next h' => cases h; exact .inl ⟨h', rfl⟩
  · next m d h' =>
    cases h
    have : (m, d) ∈ es.filter (fun p => decide (p.1 = n)) := by rw [h']; simp
    have := (List.mem_filter.1 this).2
    simp only [decide_eq_true_eq] at this
    subst this
    exact .inr ⟨d, h', rfl⟩
  · cases h

theorem pickField_nil {n : Str} {es : List (Str × Der)} (h : es.filter (fun p => decide (p.1 = n)) = []) : pickField n es = some none := by
  unfold pickField; rw [h]

theorem pickField_one {n : Str} {es : List (Str × Der)} {d : Der} (h : es.filter (fun p => decide (p.1 = n)) = [(n, d)]) : pickField n es = some (some d) := by
  unfold pickField; rw [h]

/-- The end of the loop. -/
theorem structEnd_agree {fs : List (Str × Ty)} {es : List (Str × Der)} {acc : List (Str × Dat)}
    (h : ∀ n t, (n, t) ∈ fs → (es.filter (fun p => decide (p.1 = n)) = [] ∧ got n acc = none) ∨
      ∃ d x, es.filter (fun p => decide (p.1 = n)) = [(n, d)] ∧ t.de d = some x ∧ got n acc = some x) :
    (structEnd fs acc).toOption = Ty.deFields fs es := by
  induction fs with
  | nil => rfl
  | cons p fs ih =>
    obtain ⟨n, t⟩ := p
    have ih := ih (fun n t hm => h n t (by simp [hm]))
    rw [structEnd, Ty.deFields, ← ih]
    rcases h n t (by simp) with ⟨h1, h2⟩ | ⟨d, x, h1, h2, h3⟩
    · rw [pickField_nil h1, h2]
      simp only
      cases t.missing with
      | none => rfl
      | some x => simp only; cases structEnd fs acc <;> rfl
    · rw [pickField_one h1, h3]
      simp only
      rw [h2]
      simp only; cases structEnd fs acc <;> rfl

theorem deFields_field {fs : List (Str × Ty)} {es : List (Str × Der)} {xs : List Dat} (h : Ty.deFields fs es = some xs) :
    ∀ n t, (n, t) ∈ fs → es.filter (fun p => decide (p.1 = n)) = [] ∨ ∃ d x, es.filter (fun p => decide (p.1 = n)) = [(n, d)] ∧ t.de d = some x := by
  induction fs generalizing xs with
  | nil => intro _ _ h; cases h
  | cons p fs ih =>
    obtain ⟨m, s⟩ := p
    rw [Ty.deFields] at h
    split at h
    · cases h
    · next e he =>
      split at h
      · cases h
      · next x hx =>
        split at h
        · cases h
        · next ys hy =>
          intro n t hm
          rcases List.mem_cons.1 hm with hm | hm
          · cases hm
            rcases pickField_some he with ⟨h1, -⟩ | ⟨d, h1, rfl⟩
            · exact .inl h1
            · exact .inr ⟨d, x, h1, hx⟩
          · exact ih hy n t hm

/-- The visitor of a struct. -/
theorem structOfE_agree {fs : List (Str × Ty)} (nd : (fs.map (fun f => f.1)).Nodup) (hf : ∀ f ∈ fs, ∀ d, (f.2.deE d).toOption = f.2.de d)
    (hl : ∀ c l, (Ty.deFieldListE fs 0 c l).toOption = Ty.deFieldList fs c l) (r : Reply) :
    (structOfE (Ty.deFieldListE fs 0) (Ty.deFieldE fs) (structEnd fs) r).toOption =
      structOf (fs.map (fun p => p.1)) (Ty.deFieldList fs) (Ty.deFields fs) r := by
  cases r with
  | seq c l => exact hl c l
  | map c l =>
    rw [structOfE, structOf]
    cases hx : structLoop (Ty.deFieldE fs) l [] with
    | ok acc =>
      obtain ⟨es, h1, h2⟩ := structLoop_ok.1 hx
      have hall : es.all (fun p => decide (p.1 ∈ fs.map (fun p => p.1)) || deIgnored p.2) = true := by
        clear h1 hx
        generalize ([] : List (Str × Dat)) = acc0 at h2
        induction h2 with
        | done => rfl
        | skip a b _ ih => simp [b, ih]
        | @take n v _ _ _ _ a b _ ih =>
          have : n ∈ fs.map (fun p => p.1) := by
            apply Classical.byContradiction
            intro hn; rw [deFieldE_none.2 hn] at a; cases a
          rw [List.all_cons, ih]
          simp only [this, decide_true, Bool.true_or, Bool.and_self]
      rw [h1]; simp only; rw [if_pos hall]
      refine structEnd_agree (fun n t hm => ?_)
      rcases loopRel_got h2 (n := n) (fun d => by rw [deFieldE_mem nd hm]; simp) with ⟨a, b⟩ | ⟨d, x, a, -, b, c⟩
      · exact .inl ⟨a, b⟩
      · rw [deFieldE_mem nd hm] at b
        refine .inr ⟨d, x, a, ?_, c⟩
        have := hf (n, t) hm d
        cases b' : t.deE d with
        | error e => rw [b'] at b; cases b
        | ok y => rw [b'] at b this; cases b; exact this.symm
    | error e =>
      simp only [toOption_mk_error]
      cases h1 : identKeys l with
      | none => rfl
      | some es =>
        simp only
        split
        · next hall =>
          cases h3 : Ty.deFields fs es with
          | none => rfl
          | some xs =>
            exfalso
            rw [List.all_eq_true] at hall
            have hd := deFields_field h3
            have hm : ∀ {n : Str}, n ∈ fs.map (fun p => p.1) → ∃ t, (n, t) ∈ fs := by
              intro n hn
              obtain ⟨⟨m, t⟩, h, rfl⟩ := List.mem_map.1 hn
              exact ⟨t, h⟩
            obtain ⟨acc', r⟩ := loopRel_exists (field := Ty.deFieldE fs) (es := es) (acc := [])
              (fun p hp hn => by
                have := hall p hp
                rw [deFieldE_none] at hn
                simpa [hn] using this)
              (fun p hp x hx => by
                have hn : p.1 ∈ fs.map (fun p => p.1) := by
                  apply Classical.byContradiction
                  intro hn; rw [deFieldE_none.2 hn] at hx; cases hx
                obtain ⟨t, ht⟩ := hm hn
                rw [deFieldE_mem nd ht] at hx
                cases hx
                have hmem : p ∈ es.filter (fun q => decide (q.1 = p.1)) := List.mem_filter.2 ⟨hp, by simp⟩
                rcases hd p.1 t ht with h | ⟨d, y, h, hy⟩
                · rw [h] at hmem; cases hmem
                · rw [h] at hmem
                  have hpd : p.2 = d := by rw [List.mem_singleton] at hmem; rw [hmem]
                  have := hf _ ht p.2
                  simp only at this
                  rw [hpd, hy] at this
                  rw [hpd]
                  exact ⟨y, toOption_ok.1 this⟩)
              (fun n d hn => by
                have hn' : n ∈ fs.map (fun p => p.1) := by
                  apply Classical.byContradiction
                  intro h; exact hn (deFieldE_none.2 h)
                refine ⟨fun d' h => absurd hn' (deFieldE_none.1 h), ?_⟩
                obtain ⟨t, ht⟩ := hm hn'
                rcases hd n t ht with h | ⟨d, y, h, hy⟩
                · rw [h]; simp
                · rw [h]; simp)
            rw [structLoop_ok.2 ⟨es, h1, r⟩] at hx
            cases hx
        · rfl
  | _ => rfl

/-! ### Typed data -/

theorem properFields_mem {fs : List (Str × Ty)} (h : Ty.ProperFields fs) : ∀ f ∈ fs, f.2.Proper := by
  induction fs with
  | nil => intro f hf; cases hf
  | cons p fs ih =>
    obtain ⟨n, t⟩ := p
    rw [Ty.ProperFields] at h
    intro f hf
    rcases List.mem_cons.1 hf with rfl | hf
    · exact h.1
    · exact ih h.2 f hf

mutual
theorem Ty.deE_agree : ∀ (t : Ty), t.Proper → ∀ d, (t.deE d).toOption = t.de d
  | .bool, _, d => by rw [Ty.deE, Ty.de, toOption_map, deBoolE_agree]
  | .num t, _, d => by rw [Ty.deE, Ty.de, toOption_map, deNumE_agree]
  | .char, _, d => by rw [Ty.deE, Ty.de, toOption_map, deCharE_agree]
  | .string, _, d => by rw [Ty.deE, Ty.de, toOption_map, deStringE_agree]
  | .bytes, _, d => by rw [Ty.deE, Ty.de, toOption_map, deBytesE_agree]
  | .unit, _, d => by rw [Ty.deE, Ty.de]; cases d.visit .unit <;> rfl
  | .unitStruct, _, d => by rw [Ty.deE, Ty.de]; cases d.visit .unitStruct <;> rfl
  | .option t, h, d => by
    rw [Ty.Proper] at h
    have ih := Ty.deE_agree t h
    rw [Ty.deE, Ty.de]; cases d.visit .option <;> try rfl
    simp only [toOption_map, ih]
  | .newtype t, h, d => by
    rw [Ty.Proper] at h
    have ih := Ty.deE_agree t h
    rw [Ty.deE, Ty.de]; cases d.visit .newtypeStruct with
    | newtype d => simp only [toOption_map, ih]
    | seq c l =>
      cases l with
      | nil => rfl
      | cons d r =>
        simp only [← ih]
        cases t.deE d with
        | error e => simp
        | ok x => simp only [toOption_mk_ok]; split <;> rfl
    | _ => rfl
  | .seq t, h, d => by
    rw [Ty.Proper] at h
    have ih := Ty.deE_agree t h
    rw [Ty.deE, Ty.de]; cases d.visit .seq <;> try rfl
    simp only [toOption_map, allOfE_agree (fun a _ => ih a)]
  | .tuple ts, h, d => by
    rw [Ty.Proper] at h
    have ih := Ty.deListE_agree ts h
    rw [Ty.deE, Ty.de]; cases d.visit (.tuple ts.length) <;> try rfl
    simp only [toOption_map, ih]
  | .tupleStruct ts, h, d => by
    rw [Ty.Proper] at h
    have ih := Ty.deListE_agree ts h
    rw [Ty.deE, Ty.de]; cases d.visit (.tupleStruct ts.length) <;> try rfl
    simp only [toOption_map, ih]
  | .struct fs, h, d => by
    rw [Ty.Proper] at h
    rw [Ty.deE, Ty.de, toOption_map, structOfE_agree h.1 (Ty.deFieldsE_agree fs h.2) (Ty.deFieldListE_agree fs h.2 0)]
  | .enum vs, h, d => by
    rw [Ty.Proper] at h
    rw [Ty.deE, Ty.de]; cases d.visit .enum <;> try rfl
    next n c access =>
      simp only [← deIdentE_agree n]
      cases deIdentE n with
      | error e => rfl
      | ok name => simp only [toOption_mk_ok, toOption_map, Ty.deVariantE_agree vs h]
  | .map chars t, h, d => by
    rw [Ty.Proper] at h
    have ih := Ty.deE_agree t h
    rw [Ty.deE, Ty.de]; cases d.visit .map <;> try rfl
    simp only [toOption_map]
    cases chars
    · simp only [Bool.false_eq_true, if_false]
      rw [deMapE_agree deStringE_agree ih]
    · simp only [if_true]
      rw [deMapE_agree (key' := fun k => (deChar k).map (fun c => [c])) (fun a => by rw [toOption_map, deCharE_agree]) ih]
  | .value, _, d => by rw [Ty.deE, Ty.de, toOption_map, deValueE_agree]
termination_by structural t => t
theorem Ty.deListE_agree : ∀ (ts : List Ty), Ty.ProperAll ts → ∀ i c l, (Ty.deListE ts i c l).toOption = Ty.deList ts c l
  | [], _, i, c, l => by rw [Ty.deListE, Ty.deList]; split <;> rfl
  | t :: ts, h, i, c, l => by
    rw [Ty.ProperAll] at h
    have h1 := Ty.deE_agree t h.1
    have h2 := Ty.deListE_agree ts h.2
    cases l with
    | nil => rw [Ty.deListE, Ty.deList]; rfl
    | cons d l =>
      rw [Ty.deListE, Ty.deList, ← h1, ← h2 (i + 1)]
      cases t.deE d with
      | error e => rfl
      | ok x => simp only [toOption_mk_ok]; cases Ty.deListE ts (i + 1) c l <;> rfl
theorem Ty.deFieldListE_agree : ∀ (ts : List (Str × Ty)), Ty.ProperFields ts → ∀ i c l, (Ty.deFieldListE ts i c l).toOption = Ty.deFieldList ts c l
  | [], _, i, c, l => by rw [Ty.deFieldListE, Ty.deFieldList]; split <;> rfl
  | (n, t) :: ts, h, i, c, l => by
    rw [Ty.ProperFields] at h
    have h1 := Ty.deE_agree t h.1
    have h2 := Ty.deFieldListE_agree ts h.2
    cases l with
    | nil => rw [Ty.deFieldListE, Ty.deFieldList]; rfl
    | cons d l =>
      rw [Ty.deFieldListE, Ty.deFieldList, ← h1, ← h2 (i + 1)]
      cases t.deE d with
      | error e => rfl
      | ok x => simp only [toOption_mk_ok]; cases Ty.deFieldListE ts (i + 1) c l <;> rfl
theorem Ty.deFieldsE_agree : ∀ (ts : List (Str × Ty)), Ty.ProperFields ts → ∀ f ∈ ts, ∀ d, (f.2.deE d).toOption = f.2.de d
  | [], _, f, hf, d => by cases hf
  | (n, t) :: ts, h, f, hf, d => by
    rw [Ty.ProperFields] at h
    have h1 := Ty.deE_agree t h.1
    have h2 := Ty.deFieldsE_agree ts h.2
    rcases List.mem_cons.1 hf with rfl | hf
    · exact h1 d
    · exact h2 f hf d
theorem Ty.deVariantE_agree : ∀ (vs : List (Str × VTy)), Ty.ProperVariants vs → ∀ name c access, (Ty.deVariantE vs name c access).toOption = Ty.deVariant vs name c access
  | [], _, name, c, access => by rw [Ty.deVariantE, Ty.deVariant]; rfl
  | (n, v) :: vs, h, name, c, access => by
    rw [Ty.ProperVariants] at h
    have h1 := VTy.deE_agree v h.1
    have h2 := Ty.deVariantE_agree vs h.2
    rw [Ty.deVariantE, Ty.deVariant]
    split
    · exact h1 c access
    · exact h2 name c access
theorem VTy.deE_agree : ∀ (v : VTy), v.Proper → ∀ c access, (v.deE c access).toOption = v.de c access
  | .unit, _, c, access => by rw [VTy.deE, VTy.de]; cases access .unit <;> rfl
  | .newtype t, h, c, access => by
    rw [VTy.Proper] at h
    rw [VTy.deE, VTy.de, toOption_map, Ty.deE_agree t h]
  | .tuple ts, h, c, access => by
    rw [VTy.Proper] at h
    have ih := Ty.deListE_agree ts h
    rw [VTy.deE, VTy.de]; cases access (.tuple ts.length) <;> try rfl
    simp only [ih]
  | .struct fs, h, c, access => by
    rw [VTy.Proper] at h
    rw [VTy.deE, VTy.de, structOfE_agree h.1 (Ty.deFieldsE_agree fs h.2) (Ty.deFieldListE_agree fs h.2 0)]
end

end SV
