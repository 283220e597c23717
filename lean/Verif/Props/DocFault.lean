import Verif.Proofs.DocFault
import Verif.Props.Doc
/-
C74: the errors of reading values from documents of self-describing formats.
-/
namespace SV

/-- C74: reading a document as a `Value` fails just as described by `DocFault`: with the error of the first thing that is wrong. -/
theorem C74_value (strict : Bool) (d : Der) (doc : Doc) (h : Shows strict d doc) (e : DeErr) : deValueE d = .error e ↔ DocFault strict doc e :=
  value_fault doc d h e

/-- C74: the same for a `Composite`. -/
theorem C74_composite (strict : Bool) (d : Der) (doc : Doc) (h : Shows strict d doc) (e : DeErr) : deCompositeE d = .error e ↔ CompositeFault strict doc e :=
  composite_fault doc d h e

/-- The loop over the entries. -/
theorem variantLoop_fault {strict : Bool} {ds : List (Der × Der)} {es : List (Doc × Doc)}
    (h : List.Forall₂ (fun e x => Shows strict e.1 x.1 ∧ Shows strict e.2 x.2) ds es) (n : Option Str) (c : Option (Composite Unit)) :
    (∀ e, variantLoopE ds n c = .error e ↔ ∃ pre k x post, es = pre ++ (k, x) :: post ∧ (∀ p ∈ pre, VariantEntryRead strict p) ∧ EntryFault strict k x e) ∧
    (∀ r, variantLoopE ds n c = .ok r → (∀ p ∈ es, VariantEntryRead strict p) ∧ (r.1 = none ↔ n = none ∧ ∀ p ∈ es, ¬ DocName p.1 "name".toList) ∧
      (r.2 = none ↔ c = none ∧ ∀ p ∈ es, ¬ DocName p.1 "values".toList)) := by
  have nv : "name".toList ≠ "values".toList := by decide
  induction h generalizing n c with
  | nil => refine ⟨by simp [variantLoopE], ?_⟩; intro r h; rw [variantLoopE] at h; cases h; simp
  | @cons a b ds es h1 h2 ih =>
    obtain ⟨a1, a2⟩ := a
    obtain ⟨b1, b2⟩ := b
    simp only at h1
    have first : ∀ {P : Prop} {e : DeErr}, (P ↔ EntryFault strict b1 b2 e ∨ VariantEntryRead strict (b1, b2) ∧
        ∃ pre k x post, es = pre ++ (k, x) :: post ∧ (∀ p ∈ pre, VariantEntryRead strict p) ∧ EntryFault strict k x e) →
        (P ↔ ∃ pre k x post, (b1, b2) :: es = pre ++ (k, x) :: post ∧ (∀ p ∈ pre, VariantEntryRead strict p) ∧ EntryFault strict k x e) := by
      intro P e hP
      rw [hP]
      constructor
      · rintro (h' | ⟨h', pre, k, x, post, rfl, h3, h4⟩)
        · exact ⟨[], _, _, _, rfl, by simp, h'⟩
        · refine ⟨(b1, b2) :: pre, k, x, post, rfl, ?_, h4⟩
          intro q hq
          rcases List.mem_cons.1 hq with rfl | hq
          · exact h'
          · exact h3 q hq
      · rintro ⟨pre, k, x, post, h0, h3, h4⟩
        cases pre with
        | nil => cases h0; exact .inl h4
        | cons q pre => cases h0; exact .inr ⟨h3 _ List.mem_cons_self, pre, k, x, post, rfl, fun q hq => h3 q (List.mem_cons_of_mem _ hq), h4⟩
    rw [variantLoopE]
    cases hk : deStringE a1 with
    | error e' =>
      have hf := (deStringE_fault h1.1).1 hk
      have hno : ∀ s, ¬ DocName b1 s := fun s hs => by rw [(deStringE_shows h1.1).2 hs] at hk; cases hk
      refine ⟨fun e => first ?_, fun r h => by cases h⟩
      constructor
      · intro h; cases h; exact .inl (.key hf)
      · rintro (h | ⟨h, -⟩)
        · cases h with
          | key h => have := (deStringE_fault h1.1).2 h; rw [hk] at this; cases this; rfl
          | name h | values h | other h => exact absurd h (hno _)
        · rcases h with ⟨h, -⟩ | ⟨h, -⟩ <;> exact absurd h (hno _)
    | ok s =>
      have hs := (deStringE_shows h1.1).1 hk
      have hnf : ∀ e, ¬ NameFault b1 e := fun e h => by rw [(deStringE_fault h1.1).2 h] at hk; cases hk
      simp only
      by_cases hn : s = "name".toList
      · subst hn
        rw [if_pos rfl]
        have hv : ¬ DocName b1 "values".toList := fun h => nv (hs.fun h)
        cases hx : deStringE a2 with
        | error e' =>
          have hf := (deStringE_fault h1.2).1 hx
          have hno : ∀ s, ¬ DocName b2 s := fun s hs => by rw [(deStringE_shows h1.2).2 hs] at hx; cases hx
          refine ⟨fun e => first ?_, fun r h => by cases h⟩
          constructor
          · intro h; cases h; exact .inl (.name hs hf)
          · rintro (h | ⟨h, -⟩)
            · cases h with
              | key h => exact absurd h (hnf _)
              | name _ h => have := (deStringE_fault h1.2).2 h; rw [hx] at this; cases this; rfl
              | values h => exact absurd h hv
              | other h h3 h4 => exact absurd (hs.fun h).symm h3
            · rcases h with ⟨-, s, h⟩ | ⟨h, -⟩
              · exact absurd h (hno s)
              · exact absurd h hv
        | ok m =>
          have hm := (deStringE_shows h1.2).1 hx
          have hread : VariantEntryRead strict (b1, b2) := .inl ⟨hs, m, hm⟩
          obtain ⟨i1, i2⟩ := ih (some m) c
          refine ⟨fun e => first ?_, ?_⟩
          · simp only
            rw [i1]
            constructor
            · intro h; exact .inr ⟨hread, h⟩
            · rintro (h | ⟨-, h⟩)
              · cases h with
                | key h => exact absurd h (hnf _)
                | name _ h => have := (deStringE_fault h1.2).2 h; rw [hx] at this; cases this
                | values h => exact absurd h hv
                | other h h3 h4 => exact absurd (hs.fun h).symm h3
              · exact h
          · intro r hr
            obtain ⟨j1, j2, j3⟩ := i2 r hr
            refine ⟨?_, ?_, ?_⟩
            · intro p hp
              rcases List.mem_cons.1 hp with rfl | hp
              · exact hread
              · exact j1 p hp
            · rw [j2]
              constructor
              · rintro ⟨h, -⟩; cases h
              · rintro ⟨-, h⟩; exact absurd hs (h _ List.mem_cons_self)
            · rw [j3]
              constructor
              · rintro ⟨h3, h4⟩
                refine ⟨h3, fun p hp => ?_⟩
                rcases List.mem_cons.1 hp with rfl | hp
                · exact hv
                · exact h4 p hp
              · rintro ⟨h3, h4⟩; exact ⟨h3, fun p hp => h4 p (List.mem_cons_of_mem _ hp)⟩
      · rw [if_neg hn]
        have hnn : ¬ DocName b1 "name".toList := fun h => hn (hs.fun h)
        by_cases hv : s = "values".toList
        · subst hv
          rw [if_pos rfl]
          cases hx : deCompositeE a2 with
          | error e' =>
            have hf := (composite_fault _ _ h1.2 _).1 hx
            have hno : ∀ s, ¬ DocComposite strict b2 s := fun s hs => by rw [(deCompositeE_shows h1.2).2 hs] at hx; cases hx
            refine ⟨fun e => first ?_, fun r h => by cases h⟩
            constructor
            · intro h; cases h; exact .inl (.values hs hf)
            · rintro (h | ⟨h, -⟩)
              · cases h with
                | key h => exact absurd h (hnf _)
                | name h => exact absurd h hnn
                | values _ h => have := (composite_fault _ _ h1.2 _).2 h; rw [hx] at this; cases this; rfl
                | other h h3 h4 => exact absurd (hs.fun h).symm h4
              · rcases h with ⟨h, -⟩ | ⟨-, s, h⟩
                · exact absurd h hnn
                · exact absurd h (hno s)
          | ok m =>
            have hm := (deCompositeE_shows h1.2).1 hx
            have hread : VariantEntryRead strict (b1, b2) := .inr ⟨hs, m, hm⟩
            obtain ⟨i1, i2⟩ := ih n (some m)
            refine ⟨fun e => first ?_, ?_⟩
            · simp only
              rw [i1]
              constructor
              · intro h; exact .inr ⟨hread, h⟩
              · rintro (h | ⟨-, h⟩)
                · cases h with
                  | key h => exact absurd h (hnf _)
                  | name h => exact absurd h hnn
                  | values _ h => have := (composite_fault _ _ h1.2 _).2 h; rw [hx] at this; cases this
                  | other h h3 h4 => exact absurd (hs.fun h).symm h4
                · exact h
            · intro r hr
              obtain ⟨j1, j2, j3⟩ := i2 r hr
              refine ⟨?_, ?_, ?_⟩
              · intro p hp
                rcases List.mem_cons.1 hp with rfl | hp
                · exact hread
                · exact j1 p hp
              · rw [j2]
                constructor
                · rintro ⟨h3, h4⟩
                  refine ⟨h3, fun p hp => ?_⟩
                  rcases List.mem_cons.1 hp with rfl | hp
                  · exact hnn
                  · exact h4 p hp
                · rintro ⟨h3, h4⟩; exact ⟨h3, fun p hp => h4 p (List.mem_cons_of_mem _ hp)⟩
              · rw [j3]
                constructor
                · rintro ⟨h, -⟩; cases h
                · rintro ⟨-, h⟩; exact absurd hs (h _ List.mem_cons_self)
        · rw [if_neg hv]
          have hnv : ¬ DocName b1 "values".toList := fun h => hv (hs.fun h)
          refine ⟨fun e => first ?_, fun r h => by cases h⟩
          constructor
          · intro h; cases h; exact .inl (.other hs hn hv)
          · rintro (h | ⟨h, -⟩)
            · cases h with
              | key h => exact absurd h (hnf _)
              | name h => exact absurd h hnn
              | values h => exact absurd h hnv
              | other h _ _ => rw [hs.fun h]
            · rcases h with ⟨h, -⟩ | ⟨h, -⟩
              · exact absurd h hnn
              · exact absurd h hnv

/-- C74: the same for a `Variant`. -/
theorem C74_variant (strict : Bool) (d : Der) (doc : Doc) (h : Shows strict d doc) (e : DeErr) : deVariantE d = .error e ↔ VariantFault strict doc e := by
  cases doc with
  | map es =>
    obtain ⟨ds, h1, h2⟩ := shows_map h
    simp only [deVariantE, Der.visit, h1 .any trivial]
    obtain ⟨l1, l2⟩ := variantLoop_fault h2 none none
    cases hl : variantLoopE ds none none with
    | error e' =>
      obtain ⟨pre, k, x, post, rfl, h3, h4⟩ := (l1 e').1 hl
      constructor
      · intro h; cases h; exact .entry h3 h4
      · intro h
        generalize hx : Doc.map _ = y at h
        cases h with
        | entry h5 h6 =>
          have := (l1 e).2 ⟨_, _, _, _, Doc.map.inj hx, h5, h6⟩
          rw [hl] at this; cases this; rfl
        | missing h5 =>
          cases hx
          have := h5 (k, x) (by simp)
          exfalso
          -- an entry is read or at fault, not both
          have key : ∀ {k x : Doc} {e : DeErr} (kd xd : Der), Shows strict kd k → Shows strict xd x → VariantEntryRead strict (k, x) → ¬ EntryFault strict k x e := by
            intro k x e kd xd hk hx hr hf
            have nv : "name".toList ≠ "values".toList := by decide
            cases hf with
            | key hf =>
              have := (deStringE_fault hk).2 hf
              rcases hr with ⟨hr, -⟩ | ⟨hr, -⟩ <;> (rw [(deStringE_shows hk).2 hr] at this; cases this)
            | name hn hf =>
              have := (deStringE_fault hx).2 hf
              rcases hr with ⟨-, s, hr⟩ | ⟨hr, -⟩
              · rw [(deStringE_shows hx).2 hr] at this; cases this
              · exact nv (hn.fun hr)
            | values hn hf =>
              have := (composite_fault _ _ hx _).2 hf
              rcases hr with ⟨hr, -⟩ | ⟨-, s, hr⟩
              · exact nv (hr.fun hn)
              · rw [(deCompositeE_shows hx).2 hr] at this; cases this
            | other hn h1 h2 =>
              rcases hr with ⟨hr, -⟩ | ⟨hr, -⟩
              · exact h1 (hn.fun hr)
              · exact h2 (hn.fun hr)
          exact key _ _ (shows_der strict k) (shows_der strict x) this h4
        | enumName | enum | some => cases hx
        | kind _ _ _ h5 => exact absurd hx.symm (h5 _)
    | ok r =>
      obtain ⟨n, c⟩ := r
      obtain ⟨j1, j2, j3⟩ := l2 _ hl
      simp only [true_and] at j2 j3
      constructor
      · intro h
        cases n with
        | none => cases h; exact .missing j1 (.inl (j2.1 rfl))
        | some n =>
          cases c with
          | none => cases h; exact .missing j1 (.inr (j3.1 rfl))
          | some c => cases h
      · intro h
        generalize hx : Doc.map _ = y at h
        cases h with
        | entry h5 h6 =>
          have := (l1 e).2 ⟨_, _, _, _, Doc.map.inj hx, h5, h6⟩
          rw [hl] at this; cases this
        | missing h5 h6 =>
          cases hx
          rcases h6 with h6 | h6
          · cases j2.2 h6; rfl
          · cases j3.2 h6; cases n <;> rfl
        | enumName | enum | some => cases hx
        | kind _ _ _ h5 => exact absurd hx.symm (h5 _)
  | enum x y =>
    cases h with
    | @enum _ f g acc _ _ h name sub =>
      simp only [deVariantE, Der.visit, h .any trivial]
      constructor
      · intro hv
        cases h1 : deStringE f with
        | error e' => rw [h1] at hv; cases hv; exact .enumName ((deStringE_fault name).1 h1)
        | ok m =>
          rw [h1] at hv
          cases h2 : deCompositeE g with
          | error e' => rw [h2] at hv; cases hv; exact .enum ((deStringE_shows name).1 h1) ((composite_fault _ _ sub _).1 h2)
          | ok c => rw [h2] at hv; cases hv
      · intro hv
        cases hv with
        | enumName h => rw [(deStringE_fault name).2 h]
        | enum h1 h2 => rw [(deStringE_shows name).2 h1, (composite_fault _ _ sub _).2 h2]
        | kind h1 => exact absurd rfl (h1 _ _)
  | some x =>
    cases h with
    | @some _ f _ h sub =>
      simp only [deVariantE, Der.visit, h .any trivial]
      constructor
      · intro hv
        cases h1 : deValueE f with
        | ok m => rw [h1] at hv; cases hv
        | error e' => rw [h1] at hv; cases hv; exact .some ((value_fault _ _ sub _).1 h1)
      · intro hv
        cases hv with
        | some h1 => rw [(value_fault _ _ sub _).2 h1]
        | kind _ h1 => exact absurd rfl (h1 _)
  | none =>
    cases h with
    | none h =>
      simp only [deVariantE, Der.visit, h .any trivial]
      constructor
      · intro hv; cases hv
      · intro hv; cases hv with | kind _ _ h1 => exact absurd rfl h1
  | unit | bool | num | float | char | str | bytes | newtype | seq =>
    cases h
    have h0 := ‹∀ a : Hint, a.Plain → d.ask a = _› .any trivial
    simp only [deVariantE, Der.visit, h0, Reply.wrong, Reply.unexp]
    constructor
    · intro h; cases h; exact .kind (by simp) (by simp) (by simp) (by simp) (.kind (by constructor))
    · intro h
      cases h with | kind _ _ _ _ h =>
      cases h with
      | kind h => cases h; rfl
      | bad h => cases h
  | bad =>
    cases h
    have h0 := ‹∀ a : Hint, a.Plain → d.ask a = _› .any trivial
    simp only [deVariantE, Der.visit, h0, Reply.wrong]
    constructor
    · intro h; cases h; exact .kind (by simp) (by simp) (by simp) (by simp) (.bad rfl)
    · intro h
      cases h with | kind _ _ _ _ h =>
      cases h with
      | kind h => cases h
      | bad h => cases h; rfl

/-- Reading a byte. -/
theorem byte_shows {strict : Bool} {d : Der} {doc : Doc} (h : Shows strict d doc) : (∃ n, deNumE .u8 d = .ok n) ↔ DocByte doc := by
  have : (∃ n, deNumE .u8 d = .ok n) ↔ ∃ n, deNum .u8 d = some n := by simp only [← deNumE_agree, toOption_ok]
  rw [this]
  simp only [C65_numbers strict d doc h]
  constructor
  · rintro ⟨m, h1, n, h2, h3, h4⟩
    refine ⟨n, h2, ?_, ?_, ?_⟩
    · rw [← h3]; have := m.ge; rw [h1] at this; exact this
    · rw [← h3]; have := m.lt; rw [h1] at this; exact this
    · revert h4; cases n.ty <;> decide
  · rintro ⟨n, h1, h2, h3, h4⟩
    exact ⟨⟨.u8, n.val, h2, h3⟩, rfl, n, h1, rfl, fun h => by omega⟩

/-- The error of reading a byte. -/
theorem byte_fault {strict : Bool} {d : Der} {doc : Doc} (h : Shows strict d doc) {e : DeErr} : deNumE .u8 d = .error e ↔
    (∃ n, doc = .num n ∧ n.ty.bits = 128 ∧ e = .invalidType (.num n) (.num .u8)) ∨
    (∃ n, doc = .num n ∧ n.ty.bits ≠ 128 ∧ (n.val < 0 ∨ 256 ≤ n.val) ∧ e = .invalidValue (.num n) (.num .u8)) ∨
    ((∀ n, doc ≠ .num n) ∧ WrongKind doc (.num .u8) e) := by
  cases h with
  | @num _ n h =>
    simp only [deNumE, Der.visit, h (.num .u8) trivial]
    have lo := n.ge
    have hi := n.lt
    have e1 : ∀ P : Num → Prop, (∃ m, Doc.num n = Doc.num m ∧ P m) ↔ P n := by
      intro P; constructor
      · rintro ⟨m, h, hp⟩; cases h; exact hp
      · intro hp; exact ⟨n, rfl, hp⟩
    rw [e1, e1]
    have e2 : ¬ ∀ m, Doc.num n ≠ .num m := fun h => h n rfl
    simp only [e2, false_and, or_false]
    by_cases ht : n.ty = .u8
    · rw [ht] at lo hi
      have lo' : 0 ≤ n.val := lo
      have hi' : n.val < 256 := hi
      rw [if_pos ht, ht]
      constructor
      · intro h; cases h
      · rintro (⟨h, -⟩ | ⟨-, h, -⟩)
        · exact absurd h (by decide)
        · omega
    · rw [if_neg ht]
      by_cases hw : n.ty = .u128 ∨ n.ty = .i128
      · rw [if_pos ⟨hw, by decide, by decide⟩]
        have : n.ty.bits = 128 := by rcases hw with hw | hw <;> rw [hw] <;> rfl
        simp [this, @eq_comm _ e]
      · rw [if_neg (fun h => hw h.1)]
        have hb : n.ty.bits ≠ 128 := by revert hw; cases n.ty <;> decide
        simp only [hb, false_and, false_or, ne_eq, not_false_eq_true, true_and]
        cases ho : Num.ofInt? .u8 n.val with
        | some m =>
          obtain ⟨h1, h2⟩ := ofInt?_eq_some.1 ho
          have lo := m.ge
          have hi := m.lt
          rw [h1] at lo hi
          have lo' : 0 ≤ m.val := lo
          have hi' : m.val < 256 := hi
          constructor
          · intro h; cases h
          · rintro ⟨h, -⟩; omega
        | none =>
          have : n.val < 0 ∨ 256 ≤ n.val := by
            by_cases h0 : 0 ≤ n.val ∧ n.val < 256
            · have := (ofInt?_eq_some (t := .u8) (m := ⟨.u8, n.val, h0.1, h0.2⟩)).2 ⟨rfl, rfl⟩
              rw [ho] at this; cases this
            · omega
          simp [this, @eq_comm _ e]
  | unit h | str h | char h | bytes h | bool h | float h | none h | some h _ | newtype h _ | seq h _ _ | map h _ _ _ | enum h _ _ =>
    simp only [deNumE, Der.visit, h (.num .u8) trivial, Reply.wrong, Reply.unexp]
    simp only [reduceCtorEq, false_and, exists_false, false_or, ne_eq, not_false_eq_true, implies_true, true_and]
    constructor
    · intro h; cases h; exact .kind (by constructor)
    · intro h
      cases h with
      | kind h => cases h; rfl
      | bad h => cases h
  | bad h =>
    simp only [deNumE, Der.visit, h (.num .u8) trivial, Reply.wrong, Reply.unexp]
    simp only [reduceCtorEq, false_and, exists_false, false_or, ne_eq, not_false_eq_true, implies_true, true_and]
    constructor
    · intro h; cases h; exact .bad rfl
    · intro h
      cases h with
      | kind h => cases h
      | bad h => cases h; rfl

/-- C74: the same for a `Primitive`. -/
theorem C74_primitive (strict : Bool) (d : Der) (doc : Doc) (h : Shows strict d doc) (e : DeErr) : dePrimitiveE d = .error e ↔ PrimitiveFault doc e := by
  cases doc with
  | bool | char | str | num =>
    cases h
    have h0 := ‹∀ a : Hint, a.Plain → d.ask a = _› .any trivial
    simp only [dePrimitiveE, Der.visit, h0]
    constructor
    · intro h; cases h
    · intro h; cases h with | kind h1 h2 h3 h4 => first | exact absurd rfl (h1 _) | exact absurd rfl (h2 _) | exact absurd rfl (h3 _) | exact absurd rfl (h4 _)
  | bytes bs =>
    cases h with | bytes h =>
    simp only [dePrimitiveE, Der.visit, h .any trivial, bytes32?]
    constructor
    · intro h
      split at h
      · cases h
      · next hl =>
        split at hl
        · cases hl
        · next hl' => cases h; exact .bytes hl'
    · intro h
      cases h with
      | bytes hl => rw [dif_neg hl]
      | kind _ _ _ _ h => exact absurd rfl (h _)
  | seq xs =>
    obtain ⟨ds, h1, h2⟩ := shows_seq h
    simp only [dePrimitiveE, Der.visit, h1 .any trivial]
    have key := fun e => (allOfE_error (f := deNumE .u8) (l := ds) (e := e)).trans (first_through h2 (f := deNumE .u8) (e := e) (fun a b hs => byte_shows hs) (fun a b _ hs => byte_fault hs))
    cases ha : allOfE (deNumE .u8) ds with
    | error e' =>
      obtain ⟨pre, x, post, hxs, h3, h4⟩ := (key e').1 ha
      have uniq : ∀ e, PrimitiveFault (.seq xs) e → e' = e := by
        intro e hf
        have back : ∀ {pre x post}, xs = pre ++ x :: post → (∀ y ∈ pre, DocByte y) → _ → e' = e := fun {pre x post} h5 h6 h7 => by
          have := (key e).2 ⟨pre, x, post, h5, h6, h7⟩
          rw [ha] at this; cases this; rfl
        generalize hy : Doc.seq xs = y at hf
        cases hf with
        | bytes => cases hy
        | wide h6 h7 => exact back (Doc.seq.inj hy) h6 (.inl ⟨_, rfl, h7, rfl⟩)
        | range h6 h7 h8 => exact back (Doc.seq.inj hy) h6 (.inr (.inl ⟨_, rfl, h7, h8, rfl⟩))
        | elem h6 h7 h8 => exact back (Doc.seq.inj hy) h6 (.inr (.inr ⟨h7, h8⟩))
        | length h6 h7 =>
          exfalso
          cases hy
          obtain ⟨m, hm, h8, h9, h10⟩ := h6 x (by rw [hxs]; simp)
          rcases h4 with ⟨n, hn, h11, -⟩ | ⟨n, hn, -, h11, -⟩ | ⟨h11, -⟩
          · rw [hm] at hn; cases hn; omega
          · rw [hm] at hn; cases hn; omega
          · exact h11 m hm
        | kind _ _ _ _ _ h6 => exact absurd hy.symm (h6 _)
      constructor
      · intro h
        cases h
        rw [hxs]
        rcases h4 with ⟨n, rfl, h5, rfl⟩ | ⟨n, rfl, h5, h6, rfl⟩ | ⟨h5, h6⟩
        · exact .wide h3 h5
        · exact .range h3 h5 h6
        · exact .elem h3 h5 h6
      · intro h; rw [uniq e h]
    | ok ns =>
      have hno : ∀ e, ¬ ∃ pre x post, xs = pre ++ x :: post ∧ (∀ y ∈ pre, DocByte y) ∧ _ := fun e h => by
        have := (key e).2 h; rw [ha] at this; cases this
      have len : ns.length = xs.length := by
        have hagree := allOfE_agree (l := ds) (fun a _ => deNumE_agree .u8 a)
        rw [ha] at hagree
        have := (allOf_iff.1 hagree.symm).length_eq
        rw [← this, h2.length_eq]
      have fine : ∀ y ∈ xs, DocByte y := by
        have hn : NoError (deNumE .u8) ds := noError_iff.2 (fun e h => by rw [allOfE_error.2 h] at ha; cases ha)
        intro y hy
        obtain ⟨a, ha', hs⟩ := mem_of_forall₂_right h2 hy
        exact (byte_shows hs).1 (hn a ha')
      simp only [bytes32?, List.length_map]
      constructor
      · intro h
        split at h
        · cases h
        · next hl =>
          split at hl
          · cases hl
          · next hl' => cases h; rw [len] at hl' ⊢; exact .length fine hl'
      · intro h
        generalize hy : Doc.seq xs = y at h
        cases h with
        | bytes => cases hy
        | wide h6 h7 => exact absurd ⟨_, _, _, Doc.seq.inj hy, h6, .inl ⟨_, rfl, h7, rfl⟩⟩ (hno _)
        | range h6 h7 h8 => exact absurd ⟨_, _, _, Doc.seq.inj hy, h6, .inr (.inl ⟨_, rfl, h7, h8, rfl⟩)⟩ (hno _)
        | elem h6 h7 h8 => exact absurd ⟨_, _, _, Doc.seq.inj hy, h6, .inr (.inr ⟨h7, h8⟩)⟩ (hno _)
        | length h6 h7 => cases hy; rw [← len] at h7 ⊢; rw [dif_neg h7]
        | kind _ _ _ _ _ h6 => exact absurd hy.symm (h6 _)
  | unit | float | none | some | newtype | map | enum =>
    cases h
    have h0 := ‹∀ a : Hint, a.Plain → d.ask a = _› .any trivial
    simp only [dePrimitiveE, Der.visit, h0, Reply.wrong, Reply.unexp]
    constructor
    · intro h; cases h; exact .kind (by simp) (by simp) (by simp) (by simp) (by simp) (by simp) (.kind (by constructor))
    · intro h
      cases h with | kind _ _ _ _ _ _ h =>
      cases h with
      | kind h => cases h; rfl
      | bad h => cases h
  | bad =>
    cases h
    have h0 := ‹∀ a : Hint, a.Plain → d.ask a = _› .any trivial
    simp only [dePrimitiveE, Der.visit, h0, Reply.wrong]
    constructor
    · intro h; cases h; exact .kind (by simp) (by simp) (by simp) (by simp) (by simp) (by simp) (.bad rfl)
    · intro h
      cases h with | kind _ _ _ _ _ _ h =>
      cases h with
      | kind h => cases h
      | bad h => cases h; rfl

/-- C74: of each document exactly one of the two is said: what it is read as, or one error. So the lists of faults are complete, and no two of them are told of one document. -/
theorem C74_complete (strict : Bool) (doc : Doc) :
    ((∃ v, DocValue strict doc v) ∨ ∃ e, DocFault strict doc e) ∧ (∀ v e, DocValue strict doc v → ¬ DocFault strict doc e) ∧ (∀ e e', DocFault strict doc e → DocFault strict doc e' → e = e') := by
  have hs := shows_der strict doc
  have hv : ∀ v, DocValue strict doc v ↔ deValueE (doc.der strict) = .ok v := fun v => (deValueE_shows hs).symm
  have hf : ∀ e, DocFault strict doc e ↔ deValueE (doc.der strict) = .error e := fun e => (value_fault doc _ hs e).symm
  simp only [hv, hf]
  cases deValueE (doc.der strict) with
  | ok v => exact ⟨.inl ⟨v, rfl⟩, (fun v e _ h => by cases h), (fun e e' h => by cases h)⟩
  | error e => exact ⟨.inr ⟨e, rfl⟩, (fun v e h => by cases h), (fun e e' h h' => by cases h; cases h'; rfl)⟩

theorem ok_or_error {E A : Type} {r : Except E A} {P : A → Prop} {Q : E → Prop} (hp : ∀ v, P v ↔ r = .ok v) (hq : ∀ e, Q e ↔ r = .error e) :
    ((∃ v, P v) ∨ ∃ e, Q e) ∧ (∀ v e, P v → ¬ Q e) ∧ (∀ e e', Q e → Q e' → e = e') := by
  simp only [hp, hq]
  cases r with
  | ok v => exact ⟨.inl ⟨v, rfl⟩, (fun v e _ h => by cases h), (fun e e' h => by cases h)⟩
  | error e => exact ⟨.inr ⟨e, rfl⟩, (fun v e h => by cases h), (fun e e' h h' => by cases h; cases h'; rfl)⟩

/-- C74: the same for composites, variants and primitives. -/
theorem C74_complete_own (strict : Bool) (doc : Doc) :
    (((∃ c, DocComposite strict doc c) ∨ ∃ e, CompositeFault strict doc e) ∧ (∀ c e, DocComposite strict doc c → ¬ CompositeFault strict doc e) ∧
      (∀ e e', CompositeFault strict doc e → CompositeFault strict doc e' → e = e')) ∧
    (((∃ x, DocVariant strict doc x) ∨ ∃ e, VariantFault strict doc e) ∧ (∀ x e, DocVariant strict doc x → ¬ VariantFault strict doc e) ∧
      (∀ e e', VariantFault strict doc e → VariantFault strict doc e' → e = e')) ∧
    (((∃ p, DocPrimitive doc p) ∨ ∃ e, PrimitiveFault doc e) ∧ (∀ p e, DocPrimitive doc p → ¬ PrimitiveFault doc e) ∧
      (∀ e e', PrimitiveFault doc e → PrimitiveFault doc e' → e = e')) := by
  have hs := shows_der strict doc
  refine ⟨ok_or_error (fun c => (deCompositeE_shows hs).symm) (fun e => (C74_composite strict _ doc hs e).symm),
    ok_or_error (r := deVariantE (doc.der strict)) (fun x => ?_) (fun e => (C74_variant strict _ doc hs e).symm),
    ok_or_error (r := dePrimitiveE (doc.der strict)) (fun p => ?_) (fun e => (C74_primitive strict _ doc hs e).symm)⟩
  · rw [← C65_variant strict _ doc hs, ← deVariantE_agree, toOption_ok]
  · rw [← C65_primitive strict _ doc hs, ← dePrimitiveE_agree, toOption_ok]

/-- `{ "a": [true, 1.5], 7: null }`: the floating point number is at fault. -/
example (strict : Bool) : deValueE ((Doc.map [(.str "a".toList, .seq [.bool true, .float]), (.num ⟨.u64, 7, by decide, by decide⟩, .unit)]).der strict) = .error (.invalidType .float .value) := by
  rw [C74_value strict _ _ (C65_documents strict _)]
  refine .mapVal (pre := []) (k := .str "a".toList) (x := .seq [.bool true, .float]) (s := "a".toList) ?_ (by simp [EntriesRead]) (.str _) (.seq (pre := [.bool true]) (by simp; exact ⟨_, .bool true⟩) .float)
  rintro ⟨p, hp, hn⟩
  cases hp
  exact absurd ((DocName.str _).fun hn) (by decide)

/-- 31 bytes are not a 256 bit number. -/
example : dePrimitiveE ((Doc.bytes (List.replicate 31 0)).der true) = .error (.invalidType (.bytes (List.replicate 31 0)) .primitive) := by rfl

/-- `{ "name": "A", "vals": [] }`. -/
example : deVariantE ((Doc.map [(.str "name".toList, .str "A".toList), (.str "vals".toList, .seq [])]).der true) = .error (.unknownField "vals".toList) := by rfl

end SV
