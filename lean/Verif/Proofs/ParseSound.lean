import Verif.Proofs.ParseInv
import Verif.Proofs.ParseComplete
/-
Soundness of the parser for the grammar: whatever it accepts is a text of the value returned.
-/
namespace SV

variable {u : Uni}

theorem not_endsNum {s : Str} {c : Char} (h : isDigit c = false) (h2 : c ≠ '_') : ¬ EndsNum (s ++ [c]) := by
  rintro ⟨t, d, e, hd⟩
  have := List.append_inj' e rfl
  simp at this
  obtain ⟨_, rfl⟩ := this
  rcases hd with hd | hd
  · rw [h] at hd; cases hd
  · exact h2 hd

theorem skipSpacedSep_sound {s : Char} {t t' : Toks} (h : skipSpacedSep u s t = (true, t')) :
    ∃ w1 w2, Ws u w1 ∧ Ws u w2 ∧ t.rest = w1 ++ s :: w2 ++ t'.rest := by
  unfold skipSpacedSep at h
  obtain ⟨w1, hw1, h1, _, _⟩ := skipWs_spec (u := u) t
  rcases token_cases s (skipWs u t) with ⟨r, h3, h4⟩ | ⟨_, h4⟩
  · simp only [h4] at h
    obtain ⟨w2, hw2, h5, _, _⟩ := skipWs_spec (u := u) ⟨r, (skipWs u t).off + s.utf8Size⟩
    cases h
    refine ⟨w1, w2, hw1, hw2, ?_⟩
    simp only at h5
    rw [h1, h3]
    simp [← h5]
  · simp only [h4] at h; cases h

/-- What follows the first item of a separated list. -/
inductive SepTail (u : Uni) {α : Type} (P : α → Str → Prop) : List α → Str → Prop
  | nil : SepTail u P [] []
  | cons {a as w3 w4 x y} (h3 : Ws u w3) (h4 : Ws u w4) (h : P a x) (hs : SepTail u P as y) :
      SepTail u P (a :: as) (w3 ++ ',' :: w4 ++ x ++ y)

theorem sepRest_sound {α : Type} {item : Toks → Option (Except ParseError α × Toks)} {P : α → Str → Prop}
    (hi : ∀ t a t', item t = some (.ok a, t') → ∃ x, P a x ∧ t.rest = x ++ t'.rest) :
    ∀ (fuel : Nat) (acc res : List α) (t t' : Toks),
      sepRest item (skipSpacedSep u ',') fuel acc t = some (.ok res, t') →
      ∃ as y, res = acc ++ as ∧ SepTail u P as y ∧ t.rest = y ++ t'.rest := by
  intro fuel
  induction fuel with
  | zero => intro acc res t t' h; simp [sepRest] at h
  | succ fuel ih =>
    intro acc res t t' h
    unfold sepRest at h
    cases hsep : skipSpacedSep u ',' t with
    | mk b t1 =>
      cases b with
      | false => simp [hsep] at h; exact ⟨[], [], by simp [h.1], .nil, by simp [h.2]⟩
      | true =>
        simp only [hsep] at h
        obtain ⟨w1, w2, hw1, hw2, h1⟩ := skipSpacedSep_sound hsep
        cases hit : item t1 with
        | none => simp [hit] at h
        | some r =>
          obtain ⟨x, t2⟩ := r
          cases x with
          | error e => simp [hit] at h
          | ok a =>
            simp only [hit] at h
            obtain ⟨x, hx, h2⟩ := hi _ _ _ hit
            obtain ⟨as, y, h3, h4, h5⟩ := ih _ _ _ _ h
            exact ⟨a :: as, _, by simp [h3], .cons hw1 hw2 hx h4, by simp [h1, h2, h5]⟩

theorem sepByErr_sound {α : Type} {item : Toks → Option (Except ParseError α × Toks)} {P : α → Str → Prop}
    (hi : ∀ t a t', item t = some (.ok a, t') → ∃ x, P a x ∧ t.rest = x ++ t'.rest)
    {res : List α} {t t' : Toks} (h : sepByErr item (skipSpacedSep u ',') t = some (.ok res, t')) :
    ∃ a as x y, res = a :: as ∧ P a x ∧ SepTail u P as y ∧ t.rest = x ++ y ++ t'.rest := by
  unfold sepByErr at h
  cases hit : item t with
  | none => simp [hit] at h
  | some r =>
    obtain ⟨x, t2⟩ := r
    cases x with
    | error e => simp [hit] at h
    | ok a =>
      simp only [hit] at h
      obtain ⟨x, hx, h2⟩ := hi _ _ _ hit
      obtain ⟨as, y, h3, h4, h5⟩ := sepRest_sound hi _ _ _ _ _ h
      exact ⟨a, as, x, y, by simp [h3], hx, h4, by simp [h2, h5]⟩

/-- The text of one field. -/
def FieldTxt (u : Uni) (X : Value Unit → Str → Prop) (f : Str × Value Unit) (x : Str) : Prop :=
  ∃ n w1 w2 s, FieldName u f.1 n ∧ Ws u w1 ∧ Ws u w2 ∧ Text u X f.2 s ∧ x = n ++ w1 ++ ':' :: w2 ++ s

theorem sepTail_vals {X : Value Unit → Str → Prop} {as : List (Value Unit)} {y : Str}
    (h : SepTail u (Text u X) as y) : ∀ {a x}, Text u X a x → Txt u X (.vals (a :: as)) (x ++ y) := by
  induction h with
  | nil => intro a x h; simpa using Txt.val1 h
  | cons h3 h4 h _ ih => intro a x ha; simpa [List.append_assoc] using Txt.valCons ha h3 h4 (ih h)

theorem sepTail_fields {X : Value Unit → Str → Prop} {as : List (Str × Value Unit)} {y : Str}
    (h : SepTail u (FieldTxt u X) as y) : ∀ {a x}, FieldTxt u X a x → Txt u X (.fields (a :: as)) (x ++ y) := by
  induction h with
  | nil =>
    rintro ⟨k, v⟩ x ⟨n, w1, w2, s, hk, hw1, hw2, hs, rfl⟩
    simpa [List.append_assoc] using Txt.field1 hk hw1 hw2 hs
  | cons h3 h4 h _ ih =>
    rintro ⟨k, v⟩ x ⟨n, w1, w2, s, hk, hw1, hw2, hs, rfl⟩
    simpa [List.append_assoc] using Txt.fieldCons hk hw1 hw2 hs h3 h4 (ih h)

theorem parseIdent_sound {t t' : Toks} {s : Str} (h : parseIdent u t = (.ok s, t')) :
    Ident u s ∧ t.rest = s ++ t'.rest := by
  rcases parseIdent_cases (u := u) t with ⟨_, h2⟩ | ⟨c, cs, r, h1, h2, h3, _, h5⟩
  · rw [h2] at h; cases h
  · rw [h5] at h; cases h
    refine ⟨.mk h2 fun d hd => ?_, h1⟩
    have := h3 d hd
    simpa [identCh] using this

theorem parseFieldName_sound {t t' : Toks} {s : Str} (h : parseFieldName u t = (.ok s, t')) :
    ∃ x, FieldName u s x ∧ t.rest = x ++ t'.rest := by
  unfold parseFieldName at h
  split at h
  · next h1 =>
    cases h
    obtain ⟨x, hx, h2, _⟩ := parseString_sound h1
    exact ⟨x, .quoted hx, h2⟩
  · cases h
  · obtain ⟨h1, h2⟩ := parseIdent_sound h
    exact ⟨s, .ident h1, h2⟩

theorem parseField_sound {X : Value Unit → Str → Prop} {pv : Toks → VRes}
    (hi : ∀ t v t', pv t = some (.ok v, t') → ∃ x, Text u X v x ∧ t.rest = x ++ t'.rest)
    (t : Toks) (f : Str × Value Unit) (t' : Toks) (h : parseField u pv t = some (.ok f, t')) :
    ∃ x, FieldTxt u X f x ∧ t.rest = x ++ t'.rest := by
  unfold parseField at h
  split at h
  · simp at h
  · next name t1 hn =>
    obtain ⟨x, hx, h1⟩ := parseFieldName_sound hn
    split at h
    · simp at h
    · next t2 hs =>
      obtain ⟨w1, w2, hw1, hw2, h2⟩ := skipSpacedSep_sound hs
      split at h
      · simp at h
      · simp at h
      · next v t3 hv =>
        simp at h
        obtain ⟨rfl, rfl⟩ := h
        obtain ⟨s, hs, h3⟩ := hi _ _ _ hv
        exact ⟨_, ⟨x, w1, w2, s, hx, hw1, hw2, hs, rfl⟩, by simp [h1, h2, h3]⟩

theorem skipWs_sound (t : Toks) : ∃ w, Ws u w ∧ t.rest = w ++ (skipWs u t).rest := by
  obtain ⟨w, hw, h1, _⟩ := skipWs_spec (u := u) t
  exact ⟨w, hw, h1⟩

theorem token_sound {c : Char} {t t' : Toks} (h : t.token c = (true, t')) : t.rest = c :: t'.rest := by
  rcases token_cases c t with ⟨r, h1, h2⟩ | ⟨_, h2⟩
  · rw [h2] at h; cases h; exact h1
  · rw [h2] at h; cases h

theorem token_false {c : Char} {t t' : Toks} (h : t.token c = (false, t')) : t' = t := by
  rcases token_cases c t with ⟨r, h1, h2⟩ | ⟨_, h2⟩
  · rw [h2] at h; cases h
  · rw [h2] at h; cases h; rfl

theorem parseNamed_sound {X : Value Unit → Str → Prop} {pv : Toks → VRes}
    (hi : ∀ t v t', pv t = some (.ok v, t') → ∃ x, Text u X v x ∧ t.rest = x ++ t'.rest)
    {t : Toks} {c : Composite Unit} {t' : Toks} (h : parseNamedComposite u pv t = some (.ok c, t')) :
    ∃ x, Txt u X (.comp c) (x ++ ['}']) ∧ t.rest = x ++ ['}'] ++ t'.rest := by
  unfold parseNamedComposite at h
  simp only at h
  split at h
  · simp at h
  · next t1 ht1 =>
    have h1 := token_sound ht1
    obtain ⟨w1, hw1, h2⟩ := skipWs_sound (u := u) t1
    split at h
    · next t3 ht3 =>
      simp at h
      obtain ⟨rfl, rfl⟩ := h
      have h3 := token_sound ht3
      exact ⟨_, .namedEmpty hw1, by simp [h1, h2, h3]⟩
    · next t3 ht3 =>
      have h3 := token_false ht3
      subst h3
      split at h
      · simp at h
      · simp at h
      · next vals t4 hv =>
        obtain ⟨a, as, x, y, rfl, hx, hy, h4⟩ := sepByErr_sound (parseField_sound hi) hv
        obtain ⟨w2, hw2, h5⟩ := skipWs_sound (u := u) t4
        split at h
        · simp at h
        · next t6 ht6 =>
          have h6 := token_sound ht6
          simp at h
          obtain ⟨rfl, rfl⟩ := h
          exact ⟨_, .named hw1 hw2 (sepTail_fields hy hx), by simp [h1, h2, h4, h5, h6]⟩

theorem parseUnnamed_sound {X : Value Unit → Str → Prop} {pv : Toks → VRes}
    (hi : ∀ t v t', pv t = some (.ok v, t') → ∃ x, Text u X v x ∧ t.rest = x ++ t'.rest)
    {t : Toks} {c : Composite Unit} {t' : Toks} (h : parseUnnamedComposite u pv t = some (.ok c, t')) :
    ∃ x, Txt u X (.comp c) (x ++ [')']) ∧ t.rest = x ++ [')'] ++ t'.rest := by
  unfold parseUnnamedComposite at h
  simp only at h
  split at h
  · simp at h
  · next t1 ht1 =>
    have h1 := token_sound ht1
    obtain ⟨w1, hw1, h2⟩ := skipWs_sound (u := u) t1
    split at h
    · next t3 ht3 =>
      simp at h
      obtain ⟨rfl, rfl⟩ := h
      have h3 := token_sound ht3
      exact ⟨_, .unnamedEmpty hw1, by simp [h1, h2, h3]⟩
    · next t3 ht3 =>
      have h3 := token_false ht3
      subst h3
      split at h
      · simp at h
      · simp at h
      · next vals t4 hv =>
        obtain ⟨a, as, x, y, rfl, hx, hy, h4⟩ := sepByErr_sound hi hv
        obtain ⟨w2, hw2, h5⟩ := skipWs_sound (u := u) t4
        split at h
        · simp at h
        · next t6 ht6 =>
          have h6 := token_sound ht6
          simp at h
          obtain ⟨rfl, rfl⟩ := h
          exact ⟨_, .unnamed hw1 hw2 (sepTail_vals hy hx), by simp [h1, h2, h4, h5, h6]⟩

theorem orAlt_ok {α : Type} {r : RRes α} {k : Unit → RRes α} {a : α} {t : Toks}
    (h : orAlt r k = some (.ok a, t)) :
    r = some (.ok a, t) ∨ (∃ t', r = some (.error none, t')) ∧ k () = some (.ok a, t) := by
  unfold orAlt at h
  split at h
  · exact .inr ⟨⟨_, rfl⟩, h⟩
  · exact .inl h

theorem map_ok {α β : Type} {r : RRes α} {f : α → β} {b : β} {t : Toks}
    (h : r.map (PRes.map f) = some (.ok b, t)) : ∃ a, r = some (.ok a, t) ∧ b = f a := by
  match r, h with
  | some (.ok a, t'), h => simp [PRes.map] at h; exact ⟨a, by simp [h.2], h.1.symm⟩
  | some (.error e, t'), h => simp [PRes.map] at h

theorem pmap_ok {α β : Type} {r : PRes α} {f : α → β} {b : β} {t : Toks}
    (h : some (PRes.map f r) = some (.ok b, t)) : ∃ a, r = (.ok a, t) ∧ b = f a := by
  match r, h with
  | (.ok a, t'), h => simp [PRes.map] at h; exact ⟨a, by simp [h.2], h.1.symm⟩
  | (.error e, t'), h => simp [PRes.map] at h

theorem pmap_none {α β : Type} {r : PRes α} {f : α → β} {t : Toks}
    (h : some (PRes.map f r) = some (.error none, t)) : r = (.error none, t) := by
  match r, h with
  | (.ok a, t'), h => simp [PRes.map] at h
  | (.error e, t'), h => simp [PRes.map] at h; simp [h]

theorem parseOptionalVariantIdent_sound {t t' : Toks} {s : Str}
    (h : parseOptionalVariantIdent u t = (some s, t')) :
    (∃ x, StrLit s x ∧ t.rest = 'v' :: x ++ t'.rest) ∨ (Ident u s ∧ t.rest = s ++ t'.rest) := by
  unfold parseOptionalVariantIdent at h
  split at h
  · next s1 t1 h1 =>
    cases h
    left
    obtain ⟨r, o⟩ := t
    cases r with
    | nil => simp [parseIString, Toks.next] at h1
    | cons c r =>
      unfold parseIString at h1
      simp only [Toks.next] at h1
      split at h1
      · simp at h1
      · next hc =>
        split at h1
        · next s2 t2 hp =>
          simp at h1
          obtain ⟨rfl, rfl⟩ := h1
          obtain ⟨x, hx, h2, _⟩ := parseString_sound hp
          simp at hc h2
          exact ⟨x, hx, by simp [hc, h2]⟩
        · simp at h1
  · split at h
    · next h1 => cases h; exact .inr (parseIdent_sound h1)
    · simp at h

theorem parseVariant_sound {X : Value Unit → Str → Prop} {pv : Toks → VRes}
    (hi : ∀ t v t', pv t = some (.ok v, t') → ∃ x, Text u X v x ∧ t.rest = x ++ t'.rest)
    {t : Toks} {c : Variant Unit} {t' : Toks} (hb1 : ¬ ['t', 'r', 'u', 'e'] <+: t.rest)
    (hb2 : ¬ ['f', 'a', 'l', 's', 'e'] <+: t.rest) (h : parseVariant u pv t = some (.ok c, t')) :
    ∃ x e, (e = ')' ∨ e = '}') ∧ Txt u X (.blt (.mk (.variant c) ())) (x ++ [e]) ∧
      t.rest = x ++ [e] ++ t'.rest := by
  unfold parseVariant at h
  split at h
  · simp at h
  · next ident t1 hv =>
    have hn : ∃ x, VariantName u ident x ∧ t.rest = x ++ t1.rest := by
      rcases parseOptionalVariantIdent_sound hv with ⟨x, hx, h1⟩ | ⟨hx, h1⟩
      · exact ⟨_, .quoted hx, h1⟩
      · refine ⟨_, .ident hx (fun hp => hb1 ?_) (fun hp => hb2 ?_), h1⟩ <;>
        · rw [h1]; exact hp.trans (List.prefix_append _ _)
    obtain ⟨x, hx, h1⟩ := hn
    obtain ⟨w, hw, h2⟩ := skipWs_sound (u := u) t1
    simp only at h
    split at h
    · simp at h
    · next values t3 ho =>
      simp at h
      obtain ⟨rfl, rfl⟩ := h
      have : ∃ y e, (e = ')' ∨ e = '}') ∧ Txt u X (.comp values) (y ++ [e]) ∧
          (skipWs u t1).rest = y ++ [e] ++ t3.rest := by
        rcases orAlt_ok ho with ho | ⟨_, ho⟩
        · obtain ⟨y, hy⟩ := parseNamed_sound hi ho
          exact ⟨y, '}', .inr rfl, hy⟩
        · rcases orAlt_ok ho with ho | ⟨_, ho⟩
          · obtain ⟨y, hy⟩ := parseUnnamed_sound hi ho
            exact ⟨y, ')', .inl rfl, hy⟩
          · simp at ho
      obtain ⟨y, e, he, hy, h3⟩ := this
      refine ⟨x ++ w ++ y, e, he, ?_, by simp [h1, h2, h3]⟩
      have := Txt.variant (X := X) hx hw hy
      simpa [List.append_assoc, Value.variant] using this
    · simp at h

theorem parseBuiltin_sound {pv : Toks → VRes}
    (hi : ∀ t v t', pv t = some (.ok v, t') → ∃ x, Text u NoCustom v x ∧ t.rest = x ++ t'.rest)
    {t : Toks} {v : Value Unit} {t' : Toks} (h : parseBuiltin u pv t = some (.ok v, t')) :
    ∃ x, Text u NoCustom v x ∧ t.rest = x ++ t'.rest ∧ PlainFollow x t'.rest := by
  have bracket : ∀ {x e} {cat : Cat}, (e = ')' ∨ e = '}' ∨ e = '>' ∨ e = '"' ∨ e = '\'' ∨ e = 'e') →
      PlainFollow (x ++ [e]) t'.rest := by
    intro x e _ he hx
    refine absurd hx (not_endsNum ?_ ?_) <;> rcases he with rfl | rfl | rfl | rfl | rfl | rfl <;> decide
  unfold parseBuiltin at h
  simp only at h
  split at h
  · simp at h
  · next v1 t1 ho =>
    simp at h
    obtain ⟨rfl, rfl⟩ := h
    rcases orAlt_ok ho with ho | ⟨⟨_, hb⟩, ho⟩
    · obtain ⟨b, hb, rfl⟩ := pmap_ok ho
      rcases parseBool_cases t with ⟨r, h1, h2⟩ | ⟨r, h1, h2⟩ | ⟨_, _, h2⟩
      · rw [h2] at hb; simp at hb; obtain ⟨rfl, rfl⟩ := hb
        exact ⟨_, .builtin .true_, h1, bracket (x := ['t', 'r', 'u']) (cat := .vals []) (by simp)⟩
      · rw [h2] at hb; simp at hb; obtain ⟨rfl, rfl⟩ := hb
        exact ⟨_, .builtin .false_, h1, bracket (x := ['f', 'a', 'l', 's']) (cat := .vals []) (by simp)⟩
      · rw [h2] at hb; simp at hb
    have hnb : ¬ ['t', 'r', 'u', 'e'] <+: t.rest ∧ ¬ ['f', 'a', 'l', 's', 'e'] <+: t.rest := by
      have := pmap_none hb
      rcases parseBool_cases t with ⟨r, h1, h2⟩ | ⟨r, h1, h2⟩ | ⟨h1, h2, _⟩
      · rw [h2] at this; simp at this
      · rw [h2] at this; simp at this
      · exact ⟨h1, h2⟩
    rcases orAlt_ok ho with ho | ⟨_, ho⟩
    · obtain ⟨c, hc, rfl⟩ := pmap_ok ho
      obtain ⟨x, hx, h1, _⟩ := parseChar_sound hc
      refine ⟨x, .builtin (.char hx), h1, ?_⟩
      cases hx with
      | plain h => exact bracket (x := ['\'', c]) (cat := .vals []) (by simp)
      | @esc e d he => exact bracket (x := ['\'', '\\', e]) (cat := .vals []) (by simp)
    rcases orAlt_ok ho with ho | ⟨_, ho⟩
    · obtain ⟨c, hc, rfl⟩ := pmap_ok ho
      obtain ⟨x, hx, h1, _⟩ := parseString_sound hc
      refine ⟨x, .builtin (.string hx), h1, ?_⟩
      cases hx with
      | mk h => exact bracket (cat := .vals []) (by simp)
    rcases orAlt_ok ho with ho | ⟨_, ho⟩
    · obtain ⟨c, hc, rfl⟩ := pmap_ok ho
      obtain ⟨x, hx, h1, _, h2⟩ := parseNumber_sound hc
      exact ⟨x, .builtin (.number hx), h1, fun _ => h2⟩
    rcases orAlt_ok ho with ho | ⟨_, ho⟩
    · obtain ⟨c, hc, rfl⟩ := map_ok ho
      obtain ⟨x, hx, h1⟩ := parseNamed_sound hi hc
      exact ⟨_, .builtin (.composite hx), h1, bracket (cat := .vals []) (by simp)⟩
    rcases orAlt_ok ho with ho | ⟨_, ho⟩
    · obtain ⟨c, hc, rfl⟩ := map_ok ho
      obtain ⟨x, hx, h1⟩ := parseUnnamed_sound hi hc
      exact ⟨_, .builtin (.composite hx), h1, bracket (cat := .vals []) (by simp)⟩
    rcases orAlt_ok ho with ho | ⟨_, ho⟩
    · obtain ⟨c, hc, rfl⟩ := pmap_ok ho
      obtain ⟨h1, _⟩ := parseBitSequence_sound hc
      exact ⟨_, .builtin .bits, h1, bracket (cat := .vals []) (by simp)⟩
    rcases orAlt_ok ho with ho | ⟨_, ho⟩
    · obtain ⟨c, hc, rfl⟩ := map_ok ho
      obtain ⟨x, e, he, hx, h1⟩ := parseVariant_sound hi hnb.1 hnb.2 hc
      refine ⟨_, .builtin hx, h1, bracket (cat := .vals []) ?_⟩
      rcases he with h | h <;> simp [h]
    · simp at ho
  · simp at h
  · simp at h

theorem parseValueN_sound (n : Nat) : ∀ (t : Toks) (v : Value Unit) (t' : Toks),
    parseValueN u [] n t = some (.ok v, t') →
    ∃ x, Text u NoCustom v x ∧ t.rest = x ++ t'.rest ∧ PlainFollow x t'.rest := by
  induction n with
  | zero => intro t v t' h; simp [parseValueN] at h
  | succ n ih =>
    intro t v t' h
    simp only [parseValueN, parseValueStep, runCustom] at h
    exact parseBuiltin_sound (fun t v t' h => by
      obtain ⟨x, h1, h2, _⟩ := ih t v t' h; exact ⟨x, h1, h2⟩) h

theorem fromStr_sound {s r : Str} {v : Value Unit} (h : fromStr u s = some (.ok v, r)) :
    ∃ x, Text u NoCustom v x ∧ s = x ++ r ∧ PlainFollow x r := by
  unfold fromStr parse at h
  split at h
  · simp at h
  · next res t ht =>
    simp at h
    obtain ⟨rfl, rfl⟩ := h
    exact parseValueN_sound _ _ _ _ ht

/-- The parser accepts exactly the texts of values. -/
theorem fromStr_iff {s r : Str} {v : Value Unit} :
    fromStr u s = some (.ok v, r) ↔ ∃ x, Text u NoCustom v x ∧ s = x ++ r ∧ PlainFollow x r := by
  constructor
  · exact fromStr_sound
  · rintro ⟨x, h1, rfl, h3⟩
    exact parse_complete Implements.plain.chars h1 h3

end SV
