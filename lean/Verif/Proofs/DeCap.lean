import Verif.Spec.DeCap
import Verif.Proofs.De
/-
Proofs about memory reserved for size hints (C93).
-/
namespace SV

/-- What holds of the parts of a reply. -/
def HReply.All (P : HDer → Prop) : HReply → Prop
  | .some d => P d
  | .newtype d => P d
  | .seq _ _ l => ∀ e ∈ l, P e
  | .map _ _ l => ∀ p ∈ l, P p.1 ∧ P p.2
  | .enum name e _ => P name ∧ P e
  | _ => True

theorem HDer.ind {P : HDer → Prop} (h : ∀ f, (∀ a, (f a).All P) → P (.mk f)) (d : HDer) : P d := by
  refine HDer.rec (motive_1 := P) (motive_2 := HReply.All P) (motive_3 := fun l => ∀ e ∈ l, P e) (motive_4 := fun l => ∀ p ∈ l, P p.1 ∧ P p.2) (motive_5 := fun p => P p.1 ∧ P p.2)
    (fun f ih => h f ih) ?_ ?_ ?_ ?_ ?_ ?_ ?_ ?_ ?_ ?_ ?_ ?_ ?_ ?_ ?_ ?_ ?_ ?_ ?_ ?_ d
  all_goals first
    | exact fun _ => trivial
    | exact trivial
    | skip
  · exact fun d h => h
  · exact fun d h => h
  · exact fun _ _ l h => h
  · exact fun _ _ l h => h
  · exact fun n e a h1 h2 _ => ⟨h1, h2⟩
  · simp
  · intro e l h1 h2 x hx
    rcases List.mem_cons.1 hx with rfl | hx
    · exact h1
    · exact h2 x hx
  · simp
  · intro e l h1 h2 x hx
    rcases List.mem_cons.1 hx with rfl | hx
    · exact h1
    · exact h2 x hx
  · exact fun _ _ h1 h2 => ⟨h1, h2⟩

/-- The outcome with limited memory, that without, and what is reserved. -/
def Tied {A : Type} (al : Nat → Bool) (o : Out Unit A) (o' : Option A) (R : Nat → Prop) : Prop :=
  (o = .panic ∧ ∃ n, R n ∧ al n = false) ∨ (o = Out.ofOption o' ∧ ∀ n, R n → al n = true)

theorem Tied.panic {A : Type} {al : Nat → Bool} {o : Out Unit A} {o' : Option A} {R : Nat → Prop} {n} (h : R n) (ha : al n = false) (ho : o = .panic) : Tied al o o' R :=
  .inl ⟨ho, n, h, ha⟩

def TiedVal (al : Nat → Bool) (d : HDer) : Prop := Tied al (deValueH al d) (deValue d.erase) (Reserves d)
def TiedComp (al : Nat → Bool) (d : HDer) : Prop := Tied al (deCompositeH al d) (deComposite d.erase) (ReservesComp d)

def InValues (l : List HDer) (n : Nat) : Prop := ∃ before e after, l = before ++ e :: after ∧ (∀ b ∈ before, ReadsVal b) ∧ Reserves e n
def InEntries (l : List (HDer × HDer)) (n : Nat) : Prop :=
  ∃ before k e after, l = before ++ (k, e) :: after ∧ (∀ b ∈ before, ReadsStr b.1 ∧ ReadsVal b.2) ∧ ReadsStr k ∧ Reserves e n

theorem tied_values {al : Nat → Bool} {l : List HDer} (h : ∀ e ∈ l, TiedVal al e) : Tied al (deValuesH al l) (deValues (eraseAll l)) (InValues l) := by
  induction l with
  | nil => exact .inr ⟨rfl, by rintro n ⟨b, e, a, hl, -⟩; simp at hl⟩
  | cons d l ih =>
    have hd := h d (by simp)
    have ih := ih fun e he => h e (by simp [he])
    rw [deValuesH, eraseAll, deValues]
    rcases hd with ⟨hd, n, hr, ha⟩ | ⟨hd, hr⟩
    · exact .panic (n := n) ⟨[], d, l, rfl, by simp, hr⟩ ha (by rw [hd])
    · rw [hd]
      have first : ∀ {n}, InValues (d :: l) n → Reserves d n ∨ (ReadsVal d ∧ InValues l n) := by
        rintro n ⟨before, e, after, hl, hb, hr⟩
        cases before with
        | nil => cases hl; exact .inl hr
        | cons b before => cases hl; exact .inr ⟨hb _ (by simp), before, e, after, rfl, fun b hb' => hb b (by simp [hb']), hr⟩
      cases hv : deValue d.erase with
      | none =>
        refine .inr ⟨rfl, fun n hn => ?_⟩
        rcases first hn with hn | ⟨⟨v, hv'⟩, -⟩
        · exact hr n hn
        · rw [hv] at hv'; cases hv'
      | some v =>
        rcases ih with ⟨ih, n, ⟨before, e, after, hl, hb, hre⟩, ha⟩ | ⟨ih, hr'⟩
        · refine .panic (n := n) ⟨d :: before, e, after, by rw [hl]; rfl, ?_, hre⟩ ha ?_
          · intro b hb'
            rcases List.mem_cons.1 hb' with rfl | hb'
            · exact ⟨v, hv⟩
            · exact hb b hb'
          · simp only [Out.ofOption]; rw [ih]
        · refine .inr ⟨?_, fun n hn => ?_⟩
          · simp only [Out.ofOption]
            rw [ih]
            cases deValues (eraseAll l) <;> rfl
          · rcases first hn with hn | ⟨-, hn⟩
            · exact hr n hn
            · exact hr' n hn

theorem tied_entries {al : Nat → Bool} {l : List (HDer × HDer)} (h : ∀ p ∈ l, TiedVal al p.2) : Tied al (deEntriesH al l) (deEntries (eraseEntries l)) (InEntries l) := by
  induction l with
  | nil => exact .inr ⟨rfl, by rintro n ⟨b, k, e, a, hl, -⟩; simp at hl⟩
  | cons p l ih =>
    obtain ⟨k, d⟩ := p
    have hd := h (k, d) (by simp)
    have ih := ih fun e he => h e (by simp [he])
    rw [deEntriesH, eraseEntries, deEntries]
    have first : ∀ {n}, InEntries ((k, d) :: l) n → ReadsStr k ∧ (Reserves d n ∨ (ReadsVal d ∧ InEntries l n)) := by
      rintro n ⟨before, k', e, after, hl, hb, hk, hr⟩
      cases before with
      | nil => cases hl; exact ⟨hk, .inl hr⟩
      | cons b before => cases hl; exact ⟨(hb _ (List.mem_cons_self ..)).1, .inr ⟨(hb _ (List.mem_cons_self ..)).2, before, k', e, after, rfl, fun b hb' => hb b (by simp [hb']), hk, hr⟩⟩
    cases hk : deString k.erase with
    | none =>
      refine .inr ⟨rfl, fun n hn => ?_⟩
      obtain ⟨⟨s, hs⟩, -⟩ := first hn
      rw [hk] at hs; cases hs
    | some key =>
      rcases hd with ⟨hd, n, hr, ha⟩ | ⟨hd, hr⟩
      · exact .panic (n := n) ⟨[], k, d, l, rfl, by simp, ⟨key, hk⟩, hr⟩ ha (by simp only; rw [hd])
      · simp only
        simp only at hd hr
        rw [hd]
        cases hv : deValue d.erase with
        | none =>
          refine .inr ⟨rfl, fun n hn => ?_⟩
          rcases (first hn).2 with hn | ⟨⟨v, hv'⟩, -⟩
          · exact hr n hn
          · rw [hv] at hv'; cases hv'
        | some v =>
          rcases ih with ⟨ih, n, ⟨before, k', e, after, hl, hb, hk', hre⟩, ha⟩ | ⟨ih, hr'⟩
          · refine .panic (n := n) ⟨(k, d) :: before, k', e, after, by rw [hl]; rfl, ?_, hk', hre⟩ ha ?_
            · intro b hb'
              rcases List.mem_cons.1 hb' with rfl | hb'
              · exact ⟨⟨key, hk⟩, v, hv⟩
              · exact hb b hb'
            · simp only [Out.ofOption]; rw [ih]
          · refine .inr ⟨?_, fun n hn => ?_⟩
            · simp only [Out.ofOption]
              rw [ih]
              cases deEntries (eraseEntries l) <;> rfl
            · rcases (first hn).2 with hn | ⟨-, hn⟩
              · exact hr n hn
              · exact hr' n hn

theorem bool_or (b : Bool) : b = true ∨ b = false := by cases b <;> simp

theorem tied_all (al : Nat → Bool) (d : HDer) : TiedVal al d ∧ TiedComp al d := by
  induction d using HDer.ind with
  | h f ih =>
    have ih := ih .any
    have hask : (HDer.mk f).ask .any = f .any := rfl
    revert ih hask
    generalize hr : f .any = r
    intro ih hask
    have hval : deValueH al (.mk f) = match deDefH al r with
        | .ok d => .ok (.mk d ())
        | .err e => .err e
        | .panic => .panic := by rw [deValueH, hr]; cases deDefH al r <;> rfl
    have hval' : deValue (HDer.mk f).erase = match deDef r.erase with
        | some d => some (.mk d ())
        | none => none := by rw [HDer.erase, deValue, hr]; cases deDef r.erase <;> rfl
    have hcomp : deCompositeH al (.mk f) = deCompH al r := by rw [deCompositeH, hr]
    have hcomp' : deComposite (HDer.mk f).erase = deComp r.erase := by rw [HDer.erase, deComposite, hr]
    have lift : ∀ {R : Nat → Prop}, Tied al (deDefH al r) (deDef r.erase) R → (∀ n, R n ↔ Reserves (.mk f) n) → TiedVal al (.mk f) := by
      intro R h hR
      unfold TiedVal
      rw [hval, hval']
      rcases h with ⟨h, n, hn, ha⟩ | ⟨h, hn⟩
      · exact .panic ((hR n).1 hn) ha (by rw [h])
      · refine .inr ⟨?_, fun n h => hn n ((hR n).2 h)⟩
        rw [h]; cases deDef r.erase <;> rfl
    have liftC : ∀ {R : Nat → Prop}, Tied al (deCompH al r) (deComp r.erase) R → (∀ n, R n ↔ ReservesComp (.mk f) n) → TiedComp al (.mk f) := by
      intro R h hR
      unfold TiedComp
      rw [hcomp, hcomp']
      rcases h with ⟨h, n, hn, ha⟩ | ⟨h, hn⟩
      · exact .panic ((hR n).1 hn) ha h
      · exact .inr ⟨h, fun n h => hn n ((hR n).2 h)⟩
    have leaf : (∀ n, ¬ Reserves (.mk f) n) → deDefH al r = Out.ofOption (deDef r.erase) → TiedVal al (.mk f) := by
      intro hn he
      exact lift (R := fun _ => False) (.inr ⟨he, by simp⟩) (fun n => ⟨False.elim, hn n⟩)
    have leafC : (∀ n, ¬ ReservesComp (.mk f) n) → deCompH al r = Out.ofOption (deComp r.erase) → TiedComp al (.mk f) := by
      intro hn he
      exact liftC (R := fun _ => False) (.inr ⟨he, by simp⟩) (fun n => ⟨False.elim, hn n⟩)
    cases r with
    | seq closed hint l =>
      have hl := tied_values (al := al) (l := l) (fun e he => (ih e he).1)
      have key : ∀ {A : Type} (g : List (Value Unit) → A) (o : Out Unit A) (o' : Option A),
          o = (if !al (hint.getD 0) then .panic else match deValuesH al l with
            | .ok vs => .ok (g vs)
            | .err e => .err e
            | .panic => .panic) → o' = (match deValues (eraseAll l) with
            | some vs => some (g vs)
            | none => none) → Tied al o o' (fun n => n = hint.getD 0 ∨ InValues l n) := by
        rintro A g o o' rfl rfl
        rcases bool_or (al (hint.getD 0)) with ha | ha
        · rw [ha]
          rcases hl with ⟨h, n, hn, han⟩ | ⟨h, hn⟩
          · exact .panic (.inr hn) han (by simp [h])
          · refine .inr ⟨?_, ?_⟩
            · rw [h]; cases deValues (eraseAll l) <;> rfl
            · rintro n (rfl | h)
              · exact ha
              · exact hn n h
        · exact .panic (.inl rfl) ha (by simp [ha])
      constructor
      · refine lift (key (fun vs => .composite (.unnamed vs)) _ _ (by rw [deDefH]; rfl) (by rw [HReply.erase, deDef]; rfl)) fun n => ⟨?_, ?_⟩
        · rintro (rfl | ⟨before, e, after, rfl, hb, hre⟩)
          · exact .seq hask
          · exact .element hask hb hre
        · intro h
          cases h with
          | seq h => rw [hask] at h; cases h; exact .inl rfl
          | element h hb hre => rw [hask] at h; cases h; exact .inr ⟨_, _, _, rfl, hb, hre⟩
          | map h => rw [hask] at h; cases h
          | entry h => rw [hask] at h; cases h
          | some h => rw [hask] at h; cases h
          | newtype h => rw [hask] at h; cases h
          | variant h => rw [hask] at h; cases h
      · refine liftC (key (fun vs => .unnamed vs) _ _ (by rw [deCompH]; rfl) (by rw [HReply.erase, deComp]; rfl)) fun n => ⟨?_, ?_⟩
        · rintro (rfl | ⟨before, e, after, rfl, hb, hre⟩)
          · exact .seq hask
          · exact .element hask hb hre
        · intro h
          cases h with
          | seq h => rw [hask] at h; cases h; exact .inl rfl
          | element h hb hre => rw [hask] at h; cases h; exact .inr ⟨_, _, _, rfl, hb, hre⟩
          | map h => rw [hask] at h; cases h
          | entry h => rw [hask] at h; cases h
          | newtype h => rw [hask] at h; cases h
    | map closed hint l =>
      have hl := tied_entries (al := al) (l := l) (fun e he => (ih e he).2.1)
      constructor
      · cases l with
        | nil =>
          refine leaf (fun n h => ?_) rfl
          cases h with
          | seq h => rw [hask] at h; cases h
          | element h => rw [hask] at h; cases h
          | map h => rw [hask] at h; cases h
          | @entry _ _ _ before _ _ _ _ h => rw [hask] at h; simp at h
          | some h => rw [hask] at h; cases h
          | newtype h => rw [hask] at h; cases h
          | variant h => rw [hask] at h; cases h
        | cons p l =>
          obtain ⟨k, v⟩ := p
          refine lift (R := fun n => ReadsStr k ∧ ¬ IsBitKey k ∧ (n = (hint 1).getD 0 ∨ InEntries ((k, v) :: l) n)) ?_ fun n => ⟨?_, ?_⟩
          · rw [deDefH, HReply.erase, eraseEntries, deDef]
            rw [deEntriesH, eraseEntries, deEntries] at hl
            cases hk : deString k.erase with
            | none => exact .inr ⟨rfl, by rintro n ⟨⟨s, hs⟩, -⟩; rw [hk] at hs; cases hs⟩
            | some key =>
              by_cases hb : key = bitIdent
              · refine .inr ⟨?_, by rintro n ⟨-, h, -⟩; exact absurd (by rw [IsBitKey, hk, hb]; rfl) h⟩
                simp only [if_pos hb]
                cases deVec deBool v.erase with
                | none => rfl
                | some bs =>
                  have : eraseEntries l ≠ [] ↔ l ≠ [] := by cases l <;> simp [eraseEntries]
                  simp only [this]
                  by_cases hc : closed = true ∧ l ≠ []
                  · simp [hc, Out.ofOption]
                  · simp [hc, Out.ofOption]
              · have hnb : ¬ IsBitKey k := by rw [IsBitKey, hk]; intro h; cases h; exact hb rfl
                simp only [if_neg hb]
                rw [hk] at hl
                simp only at hl
                rcases bool_or (al ((hint 1).getD 0)) with ha | ha
                · rw [ha]
                  rcases hl with ⟨h, n, hn, han⟩ | ⟨h, hn⟩
                  · refine .panic ⟨⟨key, hk⟩, hnb, .inr hn⟩ han ?_
                    revert h
                    simp only [Bool.not_true, Bool.false_eq_true, if_false]
                    cases deValueH al v <;> simp
                    cases deEntriesH al l <;> simp
                  · refine .inr ⟨?_, ?_⟩
                    · revert h
                      simp only [Bool.not_true, Bool.false_eq_true, if_false]
                      cases deValueH al v <;> cases deValue v.erase <;> cases deEntriesH al l <;> cases deEntries (eraseEntries l) <;> simp [Out.ofOption]
                    · rintro n ⟨-, -, rfl | h⟩
                      · exact ha
                      · exact hn n h
                · exact .panic ⟨⟨key, hk⟩, hnb, .inl rfl⟩ ha (by simp [ha])
          · rintro ⟨hs, hnb, rfl | ⟨before, k', e, after, hl, hb, hk, hre⟩⟩
            · exact .map hask hs hnb
            · rw [hl] at hask
              refine .entry hask ?_ hb hk hre
              rw [← hl]
              rintro p hp; cases hp; exact hnb
          · intro h
            cases h with
            | seq h => rw [hask] at h; cases h
            | element h => rw [hask] at h; cases h
            | map h hs hnb => rw [hask] at h; cases h; exact ⟨hs, hnb, .inl rfl⟩
            | @entry _ _ _ before k' e after _ h hf hb hk hre =>
              rw [hask] at h
              simp only [HReply.map.injEq] at h
              obtain ⟨-, -, h⟩ := h
              rw [← h] at hf
              refine ⟨?_, hf _ rfl, .inr ⟨before, k', e, after, h, hb, hk, hre⟩⟩
              cases before with
              | nil => cases h; exact hk
              | cons b before => cases h; exact (hb _ (List.mem_cons_self ..)).1
            | some h => rw [hask] at h; cases h
            | newtype h => rw [hask] at h; cases h
            | variant h => rw [hask] at h; cases h
      · refine liftC (R := fun n => n = (hint 0).getD 0 ∨ InEntries l n) ?_ fun n => ⟨?_, ?_⟩
        · rw [deCompH, HReply.erase, deComp]
          rcases bool_or (al ((hint 0).getD 0)) with ha | ha
          · rw [ha]
            rcases hl with ⟨h, n, hn, han⟩ | ⟨h, hn⟩
            · exact .panic (.inr hn) han (by simp [h])
            · refine .inr ⟨?_, ?_⟩
              · rw [h]; cases deEntries (eraseEntries l) <;> rfl
              · rintro n (rfl | h)
                · exact ha
                · exact hn n h
          · exact .panic (.inl rfl) ha (by simp [ha])
        · rintro (rfl | ⟨before, k, e, after, rfl, hb, hk, hre⟩)
          · exact .map hask
          · exact .entry hask hb hk hre
        · intro h
          cases h with
          | seq h => rw [hask] at h; cases h
          | element h => rw [hask] at h; cases h
          | map h => rw [hask] at h; cases h; exact .inl rfl
          | entry h hb hk hre => rw [hask] at h; cases h; exact .inr ⟨_, _, _, _, rfl, hb, hk, hre⟩
          | newtype h => rw [hask] at h; cases h
    | some d =>
      constructor
      · refine lift (R := Reserves d) ?_ fun n => ⟨fun h => .some hask h, fun h => ?_⟩
        · rw [deDefH, HReply.erase, deDef]
          rcases ih.1 with ⟨h, n, hn, ha⟩ | ⟨h, hn⟩
          · exact .panic hn ha (by rw [h])
          · exact .inr ⟨by rw [h]; cases deValue d.erase <;> rfl, hn⟩
        · cases h with
          | seq h => rw [hask] at h; cases h
          | element h => rw [hask] at h; cases h
          | map h => rw [hask] at h; cases h
          | entry h => rw [hask] at h; cases h
          | some h hre => rw [hask] at h; cases h; exact hre
          | newtype h => rw [hask] at h; cases h
          | variant h => rw [hask] at h; cases h
      · refine leafC (fun n h => ?_) rfl
        cases h with
        | seq h => rw [hask] at h; cases h
        | element h => rw [hask] at h; cases h
        | map h => rw [hask] at h; cases h
        | entry h => rw [hask] at h; cases h
        | newtype h => rw [hask] at h; cases h
    | newtype d =>
      constructor
      · refine lift (R := Reserves d) ?_ fun n => ⟨fun h => .newtype hask h, fun h => ?_⟩
        · rw [deDefH, HReply.erase, deDef]
          rcases ih.1 with ⟨h, n, hn, ha⟩ | ⟨h, hn⟩
          · exact .panic hn ha (by rw [h])
          · exact .inr ⟨by rw [h]; cases deValue d.erase <;> rfl, hn⟩
        · cases h with
          | seq h => rw [hask] at h; cases h
          | element h => rw [hask] at h; cases h
          | map h => rw [hask] at h; cases h
          | entry h => rw [hask] at h; cases h
          | some h hre => rw [hask] at h; cases h
          | newtype h hre => rw [hask] at h; cases h; exact hre
          | variant h => rw [hask] at h; cases h
      · refine liftC (R := ReservesComp d) ?_ fun n => ⟨fun h => .newtype hask h, fun h => ?_⟩
        · rw [deCompH, HReply.erase, deComp]
          exact ih.2
        · cases h with
          | seq h => rw [hask] at h; cases h
          | element h => rw [hask] at h; cases h
          | map h => rw [hask] at h; cases h
          | entry h => rw [hask] at h; cases h
          | newtype h hre => rw [hask] at h; cases h; exact hre
    | enum name e access =>
      constructor
      · refine lift (R := fun n => ReadsStr name ∧ ReservesComp e n) ?_ fun n => ⟨fun h => .variant hask h.1 h.2, fun h => ?_⟩
        · rw [deDefH, HReply.erase, deDef]
          cases hk : deString name.erase with
          | none => exact .inr ⟨rfl, by rintro n ⟨⟨s, hs⟩, -⟩; rw [hk] at hs; cases hs⟩
          | some key =>
            rcases ih.2.2 with ⟨h, n, hn, ha⟩ | ⟨h, hn⟩
            · exact .panic ⟨⟨key, hk⟩, hn⟩ ha (by simp only; rw [h])
            · exact .inr ⟨by simp only; rw [h]; cases deComposite e.erase <;> rfl, fun n h => hn n h.2⟩
        · cases h with
          | seq h => rw [hask] at h; cases h
          | element h => rw [hask] at h; cases h
          | map h => rw [hask] at h; cases h
          | entry h => rw [hask] at h; cases h
          | some h hre => rw [hask] at h; cases h
          | newtype h hre => rw [hask] at h; cases h
          | variant h hs hre => rw [hask] at h; cases h; exact ⟨hs, hre⟩
      · refine leafC (fun n h => ?_) rfl
        cases h with
        | seq h => rw [hask] at h; cases h
        | element h => rw [hask] at h; cases h
        | map h => rw [hask] at h; cases h
        | entry h => rw [hask] at h; cases h
        | newtype h => rw [hask] at h; cases h
    | _ =>
      constructor
      · refine leaf (fun n h => ?_) rfl
        cases h with
        | seq h => rw [hask] at h; cases h
        | element h => rw [hask] at h; cases h
        | map h => rw [hask] at h; cases h
        | entry h => rw [hask] at h; cases h
        | some h => rw [hask] at h; cases h
        | newtype h => rw [hask] at h; cases h
        | variant h => rw [hask] at h; cases h
      · refine leafC (fun n h => ?_) rfl
        cases h with
        | seq h => rw [hask] at h; cases h
        | element h => rw [hask] at h; cases h
        | map h => rw [hask] at h; cases h
        | entry h => rw [hask] at h; cases h
        | newtype h => rw [hask] at h; cases h

/-! ### Variants -/

def InFields (l : List (HDer × HDer)) (n : Nat) : Prop :=
  ∃ before k e after, l = before ++ (k, e) :: after ∧ (∀ b ∈ before, ReadsField b) ∧ deString k.erase = some "values".toList ∧ ReservesComp e n

theorem tied_loop (al : Nat → Bool) (l : List (HDer × HDer)) (name : Option Str) (values : Option (Composite Unit)) :
    Tied al (variantLoopH al l name values) (variantLoop (eraseEntries l) name values) (InFields l) := by
  induction l generalizing name values with
  | nil => exact .inr ⟨rfl, by rintro n ⟨b, k, e, a, hl, -⟩; simp at hl⟩
  | cons p l ih =>
    obtain ⟨k, d⟩ := p
    rw [variantLoopH, eraseEntries, variantLoop]
    have first : ∀ {n}, InFields ((k, d) :: l) n → (deString k.erase = some "values".toList ∧ ReservesComp d n) ∨ (ReadsField (k, d) ∧ InFields l n) := by
      rintro n ⟨before, k', e, after, hl, hb, hk, hr⟩
      cases before with
      | nil => cases hl; exact .inl ⟨hk, hr⟩
      | cons b before => cases hl; exact .inr ⟨hb _ (List.mem_cons_self ..), before, k', e, after, rfl, fun b hb' => hb b (by simp [hb']), hk, hr⟩
    have more : ∀ {n}, ReadsField (k, d) → InFields l n → InFields ((k, d) :: l) n := by
      rintro n hf ⟨before, k', e, after, hl, hb, hk, hr⟩
      refine ⟨(k, d) :: before, k', e, after, by rw [hl]; rfl, ?_, hk, hr⟩
      intro b hb'
      rcases List.mem_cons.1 hb' with rfl | hb'
      · exact hf
      · exact hb b hb'
    cases hk : deString k.erase with
    | none =>
      refine .inr ⟨rfl, fun n hn => ?_⟩
      rcases first hn with ⟨h, -⟩ | ⟨⟨h, -⟩ | ⟨h, -⟩, -⟩ <;> (first | simp only at h | skip) <;> (rw [hk] at h; cases h)
    | some key =>
      simp only
      by_cases h1 : key = "name".toList
      · simp only [if_pos h1]
        cases hd : deString d.erase with
        | none =>
          refine .inr ⟨rfl, fun n hn => ?_⟩
          rcases first hn with ⟨h, -⟩ | ⟨⟨-, s, h⟩ | ⟨h, -⟩, -⟩
          · rw [hk, h1] at h; exact absurd h (by decide)
          · simp only at h; rw [hd] at h; cases h
          · simp only at h; rw [hk, h1] at h; exact absurd h (by decide)
        | some s =>
          have hf : ReadsField (k, d) := .inl ⟨by rw [← h1]; exact hk, s, hd⟩
          rcases ih (some s) values with ⟨h, n, hn, ha⟩ | ⟨h, hn⟩
          · exact .panic (more hf hn) ha h
          · refine .inr ⟨h, fun n hn' => ?_⟩
            rcases first hn' with ⟨h, -⟩ | ⟨-, h⟩
            · rw [hk, h1] at h; exact absurd h (by decide)
            · exact hn n h
      · simp only [if_neg h1]
        by_cases h2 : key = "values".toList
        · simp only [if_pos h2]
          rcases (tied_all al d).2 with ⟨hd, n, hn, ha⟩ | ⟨hd, hn⟩
          · exact .panic ⟨[], k, d, l, rfl, by simp, by rw [← h2]; exact hk, hn⟩ ha (by rw [hd])
          · rw [hd]
            cases hc : deComposite d.erase with
            | none =>
              refine .inr ⟨rfl, fun n hn' => ?_⟩
              rcases first hn' with ⟨-, h⟩ | ⟨⟨h, -⟩ | ⟨-, c, h⟩, -⟩
              · exact hn n h
              · simp only at h; rw [hk] at h; cases h; exact absurd rfl h1
              · simp only at h; rw [hc] at h; cases h
            | some c =>
              have hf : ReadsField (k, d) := .inr ⟨by rw [← h2]; exact hk, c, hc⟩
              simp only [Out.ofOption]
              rcases ih name (some c) with ⟨h, n, hn', ha⟩ | ⟨h, hn'⟩
              · exact .panic (more hf hn') ha h
              · refine .inr ⟨h, fun n hn'' => ?_⟩
                rcases first hn'' with ⟨-, h⟩ | ⟨-, h⟩
                · exact hn n h
                · exact hn' n h
        · simp only [if_neg h2]
          refine .inr ⟨rfl, fun n hn => ?_⟩
          rcases first hn with ⟨h, -⟩ | ⟨⟨h, -⟩ | ⟨h, -⟩, -⟩ <;> (first | simp only at h | skip) <;> (rw [hk] at h; cases h)
          · exact absurd rfl h2
          · exact absurd rfl h1
          · exact absurd rfl h2

theorem tied_variant (al : Nat → Bool) (d : HDer) : Tied al (deVariantH al d) (deVariant d.erase) (ReservesVariant d) := by
  obtain ⟨f⟩ := d
  have hvis : (HDer.mk f).erase.visit .any = match (f .any).erase with
      | .self => .seq false [(HDer.mk f).erase]
      | r => r := rfl
  have hask : (HDer.mk f).ask .any = f .any := rfl
  rw [deVariantH, deVariant, hvis, hask]
  generalize f .any = r at hask
  have leaf : ∀ {o : Out Unit (Variant Unit)} {o' : Option (Variant Unit)}, o = .err () → o' = none → (∀ n, ¬ ReservesVariant (.mk f) n) → Tied al o o' (ReservesVariant (.mk f)) := by
    rintro o o' rfl rfl h
    exact .inr ⟨rfl, fun n hn => absurd hn (h n)⟩
  cases r with
  | some d =>
    have key : ∀ n, ReservesVariant (.mk f) n ↔ Reserves d n := fun n => ⟨fun h => (by
      cases h with
      | variant h => rw [hask] at h; cases h
      | some h hr => rw [hask] at h; cases h; exact hr
      | map h => rw [hask] at h; cases h), fun h => .some hask h⟩
    simp only [HReply.erase]
    rcases (tied_all al d).1 with ⟨h, n, hn, ha⟩ | ⟨h, hn⟩
    · exact .panic ((key n).2 hn) ha (by rw [h])
    · exact .inr ⟨by rw [h]; cases deValue d.erase <;> rfl, fun n h => hn n ((key n).1 h)⟩
  | enum name e access =>
    have key : ∀ n, ReservesVariant (.mk f) n ↔ ReadsStr name ∧ ReservesComp e n := fun n => ⟨fun h => (by
      cases h with
      | variant h hs hr => rw [hask] at h; cases h; exact ⟨hs, hr⟩
      | some h => rw [hask] at h; cases h
      | map h => rw [hask] at h; cases h), fun h => .variant hask h.1 h.2⟩
    simp only [HReply.erase]
    cases hs : deString name.erase with
    | none => exact .inr ⟨rfl, fun n h => by obtain ⟨⟨s, h⟩, -⟩ := (key n).1 h; rw [hs] at h; cases h⟩
    | some s =>
      simp only
      rcases (tied_all al e).2 with ⟨h, n, hn, ha⟩ | ⟨h, hn⟩
      · exact .panic ((key n).2 ⟨⟨s, hs⟩, hn⟩) ha (by rw [h])
      · exact .inr ⟨by rw [h]; cases deComposite e.erase <;> rfl, fun n h => hn n ((key n).1 h).2⟩
  | map closed hint l =>
    have key : ∀ n, ReservesVariant (.mk f) n ↔ InFields l n := fun n => ⟨fun h => (by
      cases h with
      | variant h => rw [hask] at h; cases h
      | some h => rw [hask] at h; cases h
      | map h hb hk hr => rw [hask] at h; cases h; exact ⟨_, _, _, _, rfl, hb, hk, hr⟩), fun ⟨b, k, e, a, h, hb, hk, hr⟩ => .map (by rw [hask, h]) hb hk hr⟩
    simp only [HReply.erase]
    rcases tied_loop al l none none with ⟨h, n, hn, ha⟩ | ⟨h, hn⟩
    · exact .panic ((key n).2 hn) ha (by rw [h])
    · refine .inr ⟨?_, fun n h => hn n ((key n).1 h)⟩
      rw [h]
      rcases variantLoop (eraseEntries l) none none with _ | ⟨_ | _, _ | _⟩ <;> rfl
  | none =>
    refine .inr ⟨rfl, fun n h => ?_⟩
    cases h with
    | variant h => rw [hask] at h; cases h
    | some h => rw [hask] at h; cases h
    | map h => rw [hask] at h; cases h
  | _ =>
    refine leaf rfl rfl fun n h => ?_
    cases h with
    | variant h => rw [hask] at h; cases h
    | some h => rw [hask] at h; cases h
    | map h => rw [hask] at h; cases h

/-! ### Honest hints -/

theorem honest_reserves (d : HDer) : Honest d → ∀ n, Reserves d n ∨ ReservesComp d n → ∃ m, n ≤ m ∧ HasList d m := by
  induction d using HDer.ind with
  | h f ih =>
    intro hh n hr
    have ih := ih .any
    have hask : (HDer.mk f).ask .any = f .any := rfl
    cases hh with
    | mk seqHint elements mapHint entries some newtype variant =>
      have elem : ∀ {closed hint before e after}, f .any = .seq closed hint (before ++ e :: after) → Reserves e n → ∃ m, n ≤ m ∧ HasList (.mk f) m := by
        intro closed hint before e after h hre
        rw [h] at ih
        obtain ⟨m, hm, hl⟩ := ih e (by simp) (elements _ _ _ _ h e (by simp)) n (.inl hre)
        exact ⟨m, hm, .element h (by simp) hl⟩
      have entr : ∀ {closed hint before k e after}, f .any = .map closed hint (before ++ (k, e) :: after) → Reserves e n → ∃ m, n ≤ m ∧ HasList (.mk f) m := by
        intro closed hint before k e after h hre
        rw [h] at ih
        obtain ⟨m, hm, hl⟩ := (ih (k, e) (by simp)).2 (entries _ _ _ _ h (k, e) (by simp)) n (.inl hre)
        exact ⟨m, hm, .entry (p := (k, e)) h (by simp) hl⟩
      rcases hr with hr | hr
      · cases hr with
        | seq h => exact ⟨_, seqHint _ _ _ _ h, .seq h⟩
        | element h _ hre => exact elem h hre
        | map h => exact ⟨_, Nat.le_trans (mapHint _ _ _ _ h 1) (Nat.sub_le _ _), .map h⟩
        | entry h _ _ _ hre => exact entr h hre
        | some h hre =>
          have h' : f .any = _ := h
          rw [h'] at ih
          obtain ⟨m, hm, hl⟩ := ih (some _ _ h) n (.inl hre)
          exact ⟨m, hm, .some h hl⟩
        | newtype h hre =>
          have h' : f .any = _ := h
          rw [h'] at ih
          obtain ⟨m, hm, hl⟩ := ih (newtype _ _ h) n (.inl hre)
          exact ⟨m, hm, .newtype h hl⟩
        | variant h _ hre =>
          have h' : f .any = _ := h
          rw [h'] at ih
          obtain ⟨m, hm, hl⟩ := ih.2 (variant _ _ _ _ h) n (.inr hre)
          exact ⟨m, hm, .variant h hl⟩
      · cases hr with
        | seq h => exact ⟨_, seqHint _ _ _ _ h, .seq h⟩
        | element h _ hre => exact elem h hre
        | map h => exact ⟨_, Nat.le_trans (mapHint _ _ _ _ h 0) (Nat.sub_le _ _), .map h⟩
        | entry h _ _ hre => exact entr h hre
        | newtype h hre =>
          have h' : f .any = _ := h
          rw [h'] at ih
          obtain ⟨m, hm, hl⟩ := ih (newtype _ _ h) n (.inr hre)
          exact ⟨m, hm, .newtype h hl⟩

/-! ### serde's own deserializers -/

theorem sizeAll_map (l : List Der) : sizeAll l = l.map Der.sized := by
  induction l with
  | nil => rfl
  | cons d l ih => rw [sizeAll, ih]; rfl

theorem sizeEntries_map (l : List (Der × Der)) : sizeEntries l = l.map fun p => (p.1.sized, p.2.sized) := by
  induction l with
  | nil => rfl
  | cons d l ih => obtain ⟨k, d⟩ := d; rw [sizeEntries, ih]; rfl

/-- What holds of the parts of a reply. -/
def Reply.All (P : Der → Prop) : Reply → Prop
  | .some d => P d
  | .newtype d => P d
  | .seq _ l => ∀ e ∈ l, P e
  | .map _ l => ∀ p ∈ l, P p.1 ∧ P p.2
  | .enum name e _ => P name ∧ P e
  | _ => True

theorem sized_erase_all (d : Der) : d.sized.erase = d := by
  refine Der.rec (motive_1 := fun d => d.sized.erase = d) (motive_2 := fun r => r.sized.erase = r) (motive_3 := fun l => eraseAll (sizeAll l) = l)
    (motive_4 := fun l => eraseEntries (sizeEntries l) = l) (motive_5 := fun p => (p.1.sized.erase, p.2.sized.erase) = p)
    ?_ ?_ ?_ ?_ ?_ ?_ ?_ ?_ ?_ ?_ ?_ ?_ ?_ ?_ ?_ ?_ ?_ ?_ ?_ ?_ ?_ d
  all_goals first
    | exact fun _ => rfl
    | exact rfl
    | skip
  · intro f ih; rw [Der.sized, HDer.erase]; congr 1; funext h; exact ih h
  · intro d h; rw [Reply.sized, HReply.erase, h]
  · intro d h; rw [Reply.sized, HReply.erase, h]
  · intro c l h; rw [Reply.sized, HReply.erase, h]
  · intro c l h; rw [Reply.sized, HReply.erase, h]
  · intro n e a h1 h2 h3; rw [Reply.sized, HReply.erase, h1, h2]; congr 1; funext h; exact h3 h
  · intro e l h1 h2; rw [sizeAll, eraseAll, h1, h2]
  · intro e l h1 h2; obtain ⟨k, e⟩ := e; rw [sizeEntries, eraseEntries, h2]; congr 1
  · intro k e h1 h2; simp only [h1, h2]

theorem sized_honest (d : Der) : Honest d.sized := by
  refine Der.rec (motive_1 := fun d => Honest d.sized) (motive_2 := Reply.All fun d => Honest d.sized) (motive_3 := fun l => ∀ e ∈ l, Honest e.sized)
    (motive_4 := fun l => ∀ p ∈ l, Honest p.1.sized ∧ Honest p.2.sized) (motive_5 := fun p => Honest p.1.sized ∧ Honest p.2.sized)
    ?_ ?_ ?_ ?_ ?_ ?_ ?_ ?_ ?_ ?_ ?_ ?_ ?_ ?_ ?_ ?_ ?_ ?_ ?_ ?_ ?_ d
  all_goals first
    | exact fun _ => trivial
    | exact trivial
    | skip
  · intro f ih
    have hask : ∀ a, (Der.mk f).sized.ask a = (f a).sized := fun _ => rfl
    refine .mk ?_ ?_ ?_ ?_ ?_ ?_ ?_
    · intro a c hint l h
      rw [hask] at h
      cases hr : f a <;> rw [hr] at h <;> cases h
      simp [sizeAll_map]
    · intro a c hint l h e he
      rw [hask] at h
      have := ih a
      cases hr : f a <;> rw [hr] at h this <;> cases h
      rw [sizeAll_map] at he
      obtain ⟨e', he', rfl⟩ := List.mem_map.1 he
      exact this e' he'
    · intro a c hint l h k
      rw [hask] at h
      cases hr : f a <;> rw [hr] at h <;> cases h
      simp [sizeEntries_map]
    · intro a c hint l h e he
      rw [hask] at h
      have := ih a
      cases hr : f a <;> rw [hr] at h this <;> cases h
      rw [sizeEntries_map] at he
      obtain ⟨e', he', rfl⟩ := List.mem_map.1 he
      exact (this e' he').2
    · intro a e h
      rw [hask] at h
      have := ih a
      cases hr : f a <;> rw [hr] at h this <;> cases h
      exact this
    · intro a e h
      rw [hask] at h
      have := ih a
      cases hr : f a <;> rw [hr] at h this <;> cases h
      exact this
    · intro a n e ac h
      rw [hask] at h
      have := ih a
      cases hr : f a <;> rw [hr] at h this <;> cases h
      exact this.2
  · exact fun d h => h
  · exact fun d h => h
  · exact fun _ l h => h
  · exact fun _ l h => h
  · exact fun n e a h1 h2 _ => ⟨h1, h2⟩
  · simp
  · intro e l h1 h2 x hx
    rcases List.mem_cons.1 hx with rfl | hx
    · exact h1
    · exact h2 x hx
  · simp
  · intro e l h1 h2 x hx
    rcases List.mem_cons.1 hx with rfl | hx
    · exact h1
    · exact h2 x hx
  · exact fun _ _ h1 h2 => ⟨h1, h2⟩

/-! ### Values as deserializers -/

variable {T : Type}

theorem valDers_map (vs : List (Value T)) : valDers vs = vs.map Value.der := by
  induction vs with
  | nil => rfl
  | cons v vs ih => rw [valDers, ih]; rfl

theorem fieldDers_map (fs : List (Str × Value T)) : fieldDers fs = fs.map fun p => (strDer p.1, p.2.der) := by
  induction fs with
  | nil => rfl
  | cons v fs ih => obtain ⟨k, v⟩ := v; rw [fieldDers, ih]; rfl

theorem split_mem {A B : Type} {f : A → B} {l : List A} {b e a} (h : l.map f = b ++ e :: a) : ∃ x ∈ l, f x = e := by
  have : e ∈ l.map f := by rw [h]; simp
  simpa using this

/-- What reading a composite reserves. -/
theorem comp_reserves {d : HDer} {c : Composite T} {n : Nat} (hd : d.ask .any = (c.ask .any).sized) (h : Reserves d n ∨ ReservesComp d n) :
    n ≤ c.len ∨ ∃ w ∈ c.vals, Reserves w.der.sized n := by
  cases c with
  | named fs =>
    have hd' : d.ask .any = .map false (fun k => some (fs.length - k)) (fs.map fun p => ((strDer p.1).sized, p.2.der.sized)) := by
      rw [hd, Composite.ask, Reply.sized, sizeEntries_map, fieldDers_map, List.length_map, List.map_map]
      rfl
    have entr : ∀ {closed hint before k e after}, d.ask .any = .map closed hint (before ++ (k, e) :: after) → Reserves e n → ∃ w ∈ (Composite.named fs).vals, Reserves w.der.sized n := by
      intro closed hint before k e after h hr
      rw [hd'] at h
      injection h with h1 h2 h3
      obtain ⟨x, hx, he⟩ := split_mem h3
      injection he with h4 h5
      exact ⟨x.2, List.mem_map.2 ⟨x, hx, rfl⟩, by rw [h5]; exact hr⟩
    rcases h with h | h
    · cases h with
      | seq h => rw [hd'] at h; cases h
      | element h => rw [hd'] at h; cases h
      | map h =>
        rw [hd'] at h
        injection h with h1 h2 h3
        left; rw [← h2]; exact Nat.sub_le _ _
      | entry h _ _ _ hr => exact .inr (entr h hr)
      | some h => rw [hd'] at h; cases h
      | newtype h => rw [hd'] at h; cases h
      | variant h => rw [hd'] at h; cases h
    · cases h with
      | seq h => rw [hd'] at h; cases h
      | element h => rw [hd'] at h; cases h
      | map h =>
        rw [hd'] at h
        injection h with h1 h2 h3
        left; rw [← h2]; exact Nat.sub_le _ _
      | entry h _ _ hr => exact .inr (entr h hr)
      | newtype h => rw [hd'] at h; cases h
  | unnamed vs =>
    have hd' : d.ask .any = .seq false (some vs.length) (vs.map fun v => v.der.sized) := by
      rw [hd, Composite.ask, Reply.sized, sizeAll_map, valDers_map, List.length_map, List.map_map]
      rfl
    have elem : ∀ {closed hint before e after}, d.ask .any = .seq closed hint (before ++ e :: after) → Reserves e n → ∃ w ∈ (Composite.unnamed vs).vals, Reserves w.der.sized n := by
      intro closed hint before e after h hr
      rw [hd'] at h
      injection h with h1 h2 h3
      obtain ⟨x, hx, he⟩ := split_mem h3
      exact ⟨x, hx, by rw [he]; exact hr⟩
    rcases h with h | h
    · cases h with
      | seq h =>
        rw [hd'] at h
        injection h with h1 h2 h3
        left; rw [← h2]; exact Nat.le_refl _
      | element h _ hr => exact .inr (elem h hr)
      | map h => rw [hd'] at h; cases h
      | entry h => rw [hd'] at h; cases h
      | some h => rw [hd'] at h; cases h
      | newtype h => rw [hd'] at h; cases h
      | variant h => rw [hd'] at h; cases h
    · cases h with
      | seq h =>
        rw [hd'] at h
        injection h with h1 h2 h3
        left; rw [← h2]; exact Nat.le_refl _
      | element h _ hr => exact .inr (elem h hr)
      | map h => rw [hd'] at h; cases h
      | entry h => rw [hd'] at h; cases h
      | newtype h => rw [hd'] at h; cases h

theorem value_step (v : Value T) (n : Nat) (h : Reserves v.der.sized n) :
    (∃ c x, v = .mk (.composite c) x ∧ (n ≤ c.len ∨ ∃ w ∈ c.vals, Reserves w.der.sized n)) ∨
    (∃ m c x, v = .mk (.variant (.mk m c)) x ∧ (n ≤ c.len ∨ ∃ w ∈ c.vals, Reserves w.der.sized n)) := by
  obtain ⟨d, x⟩ := v
  have hask : (Value.mk d x).der.sized.ask .any = (d.ask .any).sized := rfl
  cases d with
  | composite c => exact .inl ⟨c, x, rfl, comp_reserves hask (.inl h)⟩
  | variant v =>
    obtain ⟨m, c⟩ := v
    refine .inr ⟨m, c, x, rfl, ?_⟩
    have hask' : (Value.mk (.variant (.mk m c)) x).der.sized.ask .any = .enum (strDer m).sized (Der.mk c.ask).sized fun h => (accessOf c.ask h).sized := by
      rw [hask, ValueDef.ask, Variant.ask, Reply.sized]
    cases h with
    | seq h => rw [hask'] at h; cases h
    | element h => rw [hask'] at h; cases h
    | map h => rw [hask'] at h; cases h
    | entry h => rw [hask'] at h; cases h
    | some h => rw [hask'] at h; cases h
    | newtype h => rw [hask'] at h; cases h
    | variant h _ hr =>
      rw [hask'] at h
      injection h with h1 h2 h3
      rw [← h2] at hr
      exact comp_reserves rfl (.inr hr)
  | bitSequence b =>
    exfalso
    have hask' : (Value.mk (.bitSequence b) x).der.sized.ask .any = .map false (fun k => some (1 - k)) [((strDer bitIdent).sized, (boolsDer b).sized)] := rfl
    have hbit : IsBitKey (strDer bitIdent).sized := by
      rw [IsBitKey, sized_erase_all]; rfl
    cases h with
    | seq h => rw [hask'] at h; cases h
    | element h => rw [hask'] at h; cases h
    | map h _ hk =>
      rw [hask'] at h
      injection h with h1 h2 h3
      injection h3 with h3 h4
      injection h3 with h3 h5
      rw [← h3] at hk
      exact hk hbit
    | entry h hk =>
      rw [hask'] at h
      injection h with h1 h2 h3
      rw [← h3] at hk
      exact hk _ rfl hbit
    | some h => rw [hask'] at h; cases h
    | newtype h => rw [hask'] at h; cases h
    | variant h => rw [hask'] at h; cases h
  | primitive p =>
    exfalso
    rw [ValueDef.ask] at hask
    simp only at hask
    cases p <;> (try simp only [Primitive.any, Reply.sized] at hask) <;>
    · cases h with
      | seq h => rw [hask] at h; cases h
      | element h => rw [hask] at h; cases h
      | map h => rw [hask] at h; cases h
      | entry h => rw [hask] at h; cases h
      | some h => rw [hask] at h; cases h
      | newtype h => rw [hask] at h; cases h
      | variant h => rw [hask] at h; cases h

theorem value_reserves (v : Value T) : ∀ n, Reserves v.der.sized n → ∃ m, n ≤ m ∧ HasComposite v m := by
  have key : ∀ v : Value T, (∀ c x, v = .mk (.composite c) x → ∀ w ∈ c.vals, ∀ n, Reserves w.der.sized n → ∃ m, n ≤ m ∧ HasComposite w m) →
      (∀ k c x, v = .mk (.variant (.mk k c)) x → ∀ w ∈ c.vals, ∀ n, Reserves w.der.sized n → ∃ m, n ≤ m ∧ HasComposite w m) →
      ∀ n, Reserves v.der.sized n → ∃ m, n ≤ m ∧ HasComposite v m := by
    intro v h1 h2 n h
    rcases value_step v n h with ⟨c, x, rfl, hn | ⟨w, hw, hr⟩⟩ | ⟨k, c, x, rfl, hn | ⟨w, hw, hr⟩⟩
    · exact ⟨_, hn, .composite⟩
    · obtain ⟨m, hm, hc⟩ := h1 c x rfl w hw n hr; exact ⟨m, hm, .inComposite hw hc⟩
    · exact ⟨_, hn, .variant⟩
    · obtain ⟨m, hm, hc⟩ := h2 k c x rfl w hw n hr; exact ⟨m, hm, .inVariant hw hc⟩
  induction v using Value.ind with
  | named fs c ih =>
    refine key _ (fun c x h w hw => ?_) (by intro k c x h; cases h)
    cases h; obtain ⟨p, hp, rfl⟩ := List.mem_map.1 hw; exact ih p hp
  | unnamed vs c ih =>
    refine key _ (fun c x h w hw => ?_) (by intro k c x h; cases h)
    cases h; exact ih w hw
  | vnamed n fs c ih =>
    refine key _ (by intro c x h; cases h) (fun k c x h w hw => ?_)
    cases h; obtain ⟨p, hp, rfl⟩ := List.mem_map.1 hw; exact ih p hp
  | vunnamed n vs c ih =>
    refine key _ (by intro c x h; cases h) (fun k c x h w hw => ?_)
    cases h; exact ih w hw
  | bits b c => exact key _ (by intro c x h; cases h) (by intro k c x h; cases h)
  | prim p c => exact key _ (by intro c x h; cases h) (by intro k c x h; cases h)

end SV
