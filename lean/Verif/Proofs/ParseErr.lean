import Verif.Spec.Open
import Verif.Proofs.ParseComplete
/-
An error at a position where a value is expected is the error of the whole parse.
-/
namespace SV

variable {u : Uni} {cps : List CustomParser} {X : Value Unit → Str → Prop} {Follow : Str → Str → Prop}

theorem follow_ws (impl : ImplementsChars u cps X Follow) (s w : Str) (c : Char) (r : Str) (hw : Ws u w)
    (hc : Delim u c) : Follow s (w ++ c :: r) := by
  cases w with
  | nil => exact impl.sep _ _ _ hc
  | cons d w => exact impl.sep _ _ _ (.inl (hw d (by simp)))

/-- One field, whatever the value does. -/
theorem parseField_value {pv : Toks → VRes} {k n w1 w2 y : Str} (o : Nat) (hk : FieldName u k n) (hw1 : Ws u w1)
    (hw2 : Ws u w2) (hy : GoodHead u y) :
    parseField u pv ⟨n ++ w1 ++ ':' :: w2 ++ y, o⟩ =
      match pv ⟨y, o + utf8Len (n ++ w1 ++ ':' :: w2)⟩ with
      | none => none
      | some (.error e, t3) => some (.error e, t3)
      | some (.ok v, t3) => some (.ok (k, v), t3) := by
  have cl : (':' : Char).utf8Size = 1 := rfl
  have e : n ++ w1 ++ ':' :: w2 ++ y = n ++ (w1 ++ ':' :: w2 ++ y) := by simp [List.append_assoc]
  rw [e]
  unfold parseField
  rw [hk.parse (by
    rw [List.append_assoc]
    exact headNot_ws_append hw1 (fun c h => ws_not_identCh h)
      (HeadNot_cons.2 (identCh_ascii_false (by decide) (by decide) (by decide))))]
  simp only
  rw [skipSpacedSep_complete (ws_false_ascii (by decide) (by decide)) rfl hw1 hw2 hy.notWs]
  simp only
  have e2 : o + utf8Len n + utf8Len w1 + 1 + utf8Len w2 = o + utf8Len (n ++ w1 ++ ':' :: w2) := by
    simp [cl]; omega
  rw [e2]
  rfl

/-- `sepRest` over a separator to an item that fails. -/
theorem sepRest_err {α : Type} {item : Toks → Option (Except ParseError α × Toks)} {w3 w4 t : Str}
    (h3 : Ws u w3) (h4 : Ws u w4) (ht : HeadNot u.ws t) (o fuel : Nat) (hf : 0 < fuel) (acc : List α)
    {e : ParseError} {t2 : Toks}
    (hi : item ⟨t, o + utf8Len w3 + 1 + utf8Len w4⟩ = some (.error e, t2)) :
    ∃ t', sepRest item (skipSpacedSep u ',') fuel acc ⟨w3 ++ ',' :: w4 ++ t, o⟩ = some (.error e, t') := by
  obtain ⟨f, rfl⟩ : ∃ f, fuel = f + 1 := ⟨fuel - 1, by omega⟩
  rw [sepRest, skipSpacedSep_complete (ws_false_ascii (by decide) (by decide)) rfl h3 h4 ht]
  simp only [hi]
  exact ⟨_, rfl⟩

theorem vals_err (impl : ImplementsChars u cps X Follow) {w3 w4 y : Str} (hw3 : Ws u w3) (hw4 : Ws u w4)
    (hy : GoodHead u y) (m : Nat) (e : ParseError) : ∀ {vs : List (Value Unit)} {x : Str}, Txt u X (.vals vs) x →
    ∀ (o : Nat) (t' : Toks), x.length < m →
      parseValueN u cps m ⟨y, o + utf8Len x + utf8Len w3 + 1 + utf8Len w4⟩ = some (.error e, t') →
      ∃ f0 t2, parseValueN u cps m ⟨x ++ (w3 ++ ',' :: w4 ++ y), o⟩ = some (.ok f0, t2) ∧
        t2.rest.length ≤ (x ++ (w3 ++ ',' :: w4 ++ y)).length ∧
        ∀ fuel acc, t2.rest.length < fuel → ∃ t'',
          sepRest (parseValueN u cps m) (skipSpacedSep u ',') fuel acc t2 = some (.error e, t'')
  | _, _, .val1 (v := v) (s := s) h => by
    intro o t' hm he
    have h1 := good impl h m (w3 ++ ',' :: w4 ++ y) o hm
      (by rw [List.append_assoc]; exact follow_ws impl _ _ _ _ hw3 (by simp [Delim]))
    refine ⟨v, _, h1, by simp, ?_⟩
    intro fuel acc hf
    exact sepRest_err hw3 hw4 hy.notWs _ _ (by omega) _ he
  | _, _, .valCons (v := v) (s := s) (w3 := w3') (w4 := w4') (vs := vs) (t := t) h hw3' hw4' hs => by
    intro o t' hm he
    have cm : (',' : Char).utf8Size = 1 := rfl
    have h1 := good impl h m (w3' ++ ',' :: w4' ++ (t ++ (w3 ++ ',' :: w4 ++ y))) o (by simp at hm; omega)
      (by rw [List.append_assoc]; exact follow_ws impl _ _ _ _ hw3' (by simp [Delim]))
    have e1 : s ++ w3' ++ ',' :: w4' ++ t ++ (w3 ++ ',' :: w4 ++ y) =
        s ++ (w3' ++ ',' :: w4' ++ (t ++ (w3 ++ ',' :: w4 ++ y))) := by simp
    rw [e1]
    refine ⟨v, _, h1, by simp, ?_⟩
    intro fuel acc hf
    obtain ⟨f, rfl⟩ : ∃ f, fuel = f + 1 := ⟨fuel - 1, by omega⟩
    obtain ⟨f0, t2, h2, h3, h4⟩ := vals_err impl hw3 hw4 hy m e hs
      (o + utf8Len s + utf8Len w3' + 1 + utf8Len w4') t' (by simp at hm; omega) (by
        rw [← he]; congr 2; simp [cm]; omega)
    rw [sepRest_next hw3' hw4' ((hs.goodHead impl.head).append _).notWs _ _ _ h2]
    exact h4 f _ (by simp at hf h3; omega)

theorem fields_err (impl : ImplementsChars u cps X Follow) {w3 w4 y : Str} (hw3 : Ws u w3) (hw4 : Ws u w4)
    (hy : GoodHead u y) (m : Nat) (e : ParseError) : ∀ {vs : List (Str × Value Unit)} {x : Str}, Txt u X (.fields vs) x →
    ∀ (o : Nat) (t' : Toks), x.length < m →
      parseField u (parseValueN u cps m) ⟨y, o + utf8Len x + utf8Len w3 + 1 + utf8Len w4⟩ = some (.error e, t') →
      ∃ f0 t2, parseField u (parseValueN u cps m) ⟨x ++ (w3 ++ ',' :: w4 ++ y), o⟩ = some (.ok f0, t2) ∧
        t2.rest.length ≤ (x ++ (w3 ++ ',' :: w4 ++ y)).length ∧
        ∀ fuel acc, t2.rest.length < fuel → ∃ t'',
          sepRest (parseField u (parseValueN u cps m)) (skipSpacedSep u ',') fuel acc t2 = some (.error e, t'')
  | _, _, .field1 (k := k) (v := v) (n := n) (s := s) (w1 := w1) (w2 := w2) hk hw1 hw2 h => by
    intro o t' hm he
    have cl : (':' : Char).utf8Size = 1 := rfl
    have h1 := good impl h m (w3 ++ ',' :: w4 ++ y) (o + utf8Len (n ++ w1 ++ ':' :: w2)) (by simp at hm; omega)
      (by rw [List.append_assoc]; exact follow_ws impl _ _ _ _ hw3 (by simp [Delim]))
    have e1 : n ++ w1 ++ ':' :: w2 ++ s ++ (w3 ++ ',' :: w4 ++ y) =
      n ++ w1 ++ ':' :: w2 ++ (s ++ (w3 ++ ',' :: w4 ++ y)) := by simp
    rw [e1, parseField_value o hk hw1 hw2 ((h.goodHead impl.head).append _), h1]
    refine ⟨(k, v), _, rfl, by simp; omega, ?_⟩
    intro fuel acc hf
    refine sepRest_err hw3 hw4 hy.notWs _ _ (by omega) _ (t2 := t') ?_
    rw [← he]; congr 2; simp; omega
  | _, _, .fieldCons (k := k) (v := v) (n := n) (s := s) (w1 := w1) (w2 := w2) (w3 := w3') (w4 := w4') (fs := vs)
      (t := t) hk hw1 hw2 h hw3' hw4' hs => by
    intro o t' hm he
    have cm : (',' : Char).utf8Size = 1 := rfl
    have cl : (':' : Char).utf8Size = 1 := rfl
    have h1 := good impl h m (w3' ++ ',' :: w4' ++ (t ++ (w3 ++ ',' :: w4 ++ y))) (o + utf8Len (n ++ w1 ++ ':' :: w2))
      (by simp at hm; omega)
      (by rw [List.append_assoc]; exact follow_ws impl _ _ _ _ hw3' (by simp [Delim]))
    have e1 : n ++ w1 ++ ':' :: w2 ++ s ++ w3' ++ ',' :: w4' ++ t ++ (w3 ++ ',' :: w4 ++ y) =
        n ++ w1 ++ ':' :: w2 ++ (s ++ (w3' ++ ',' :: w4' ++ (t ++ (w3 ++ ',' :: w4 ++ y)))) := by simp
    rw [e1, parseField_value o hk hw1 hw2 ((h.goodHead impl.head).append _), h1]
    refine ⟨(k, v), _, rfl, by simp; omega, ?_⟩
    intro fuel acc hf
    obtain ⟨f, rfl⟩ : ∃ f, fuel = f + 1 := ⟨fuel - 1, by omega⟩
    obtain ⟨f0, t2, h2, h3, h4⟩ := fields_err impl hw3 hw4 hy m e hs
      (o + utf8Len (n ++ w1 ++ ':' :: w2) + utf8Len s + utf8Len w3' + 1 + utf8Len w4') t' (by simp at hm; omega) (by
        rw [← he]; congr 2; simp [cm]; omega)
    rw [sepRest_next hw3' hw4' ((hs.goodHead impl.head).append _).notWs _ _ _ h2]
    exact h4 f _ (by simp at hf h3; omega)

/-- What is proved of the two kinds of openings. -/
def OpenGood (u : Uni) (cps : List CustomParser) (s : Str) (e : Nat → ParseError) : OpenCat → Str → Prop
  | .val, p => ∀ n o, (p ++ s).length < n → ∃ t', parseValueN u cps n ⟨p ++ s, o⟩ = some (.error (e (o + utf8Len p)), t')
  | .comp, p => (∃ r, p = '(' :: r ∧ ∀ n o, (p ++ s).length ≤ n →
        ∃ t', parseUnnamedComposite u (parseValueN u cps n) ⟨p ++ s, o⟩ = some (.error (some (e (o + utf8Len p))), t')) ∨
      (∃ r, p = '{' :: r ∧ ∀ n o, (p ++ s).length ≤ n →
        ∃ t', parseNamedComposite u (parseValueN u cps n) ⟨p ++ s, o⟩ = some (.error (some (e (o + utf8Len p))), t'))

theorem OpenTxt.goodHead (impl : ImplementsChars u cps X Follow) {D : Str → Prop} {s : Str} (hs : GoodHead u s)
    {cat : OpenCat} {p : Str} (h : OpenTxt u X D cat p) : GoodHead u (p ++ s) := by
  induction h with
  | here => exact hs
  | composite _ _ ih => exact ih
  | variant _ hn _ _ _ => simpa [List.append_assoc] using hn.goodHead.append _
  | unnamedFirst _ _ _ => exact goodHead_ascii (by decide) (by decide) (by decide) (by decide)
  | unnamedLater _ _ _ _ _ _ => exact goodHead_ascii (by decide) (by decide) (by decide) (by decide)
  | namedFirst _ _ _ _ _ _ => exact goodHead_ascii (by decide) (by decide) (by decide) (by decide)
  | namedLater _ _ _ _ _ _ _ _ _ => exact goodHead_ascii (by decide) (by decide) (by decide) (by decide)

theorem parseNamed_item {pv : Toks → VRes} {w x : Str} (hw : Ws u w) (hx : GoodHead u x) (o : Nat) {e : ParseError} {t : Toks}
    (h : sepByErr (parseField u pv) (skipSpacedSep u ',') ⟨x, o + 1 + utf8Len w⟩ = some (.error e, t)) :
    ∃ t', parseNamedComposite u pv ⟨'{' :: w ++ x, o⟩ = some (.error (some e), t') := by
  have lc : ('{' : Char).utf8Size = 1 := rfl
  simp only [parseNamedComposite, List.cons_append, token_eq]
  rw [skipWs_split hw hx.notWs]
  have hb : Toks.token '}' ⟨x, o + '{'.utf8Size + utf8Len w⟩ = (false, ⟨x, o + '{'.utf8Size + utf8Len w⟩) := by
    obtain ⟨c, r, rfl, _, _, hc⟩ := hx
    exact token_ne hc _ _
  rw [hb]
  simp only [lc, h]
  exact ⟨_, rfl⟩

theorem parseUnnamed_item {pv : Toks → VRes} {w x : Str} (hw : Ws u w) (hx : GoodHead u x) (o : Nat) {e : ParseError} {t : Toks}
    (h : sepByErr pv (skipSpacedSep u ',') ⟨x, o + 1 + utf8Len w⟩ = some (.error e, t)) :
    ∃ t', parseUnnamedComposite u pv ⟨'(' :: w ++ x, o⟩ = some (.error (some e), t') := by
  have lc : ('(' : Char).utf8Size = 1 := rfl
  simp only [parseUnnamedComposite, List.cons_append, token_eq]
  rw [skipWs_split hw hx.notWs]
  have hb : Toks.token ')' ⟨x, o + '('.utf8Size + utf8Len w⟩ = (false, ⟨x, o + '('.utf8Size + utf8Len w⟩) := by
    obtain ⟨c, r, rfl, _, hc, _⟩ := hx
    exact token_ne hc _ _
  rw [hb]
  simp only [lc, h]
  exact ⟨_, rfl⟩

theorem open_err (impl : ImplementsChars u cps X Follow) {s : Str} (hs : GoodHead u s) {e : Nat → ParseError}
    (he : ∀ n o, s.length < n → ∃ t', parseValueN u cps n ⟨s, o⟩ = some (.error (e o), t'))
    {cat : OpenCat} {p : Str}
    (h : OpenTxt u X (fun q => ∃ c', runCustom cps (q ++ s) = (none, c')) cat p) :
    OpenGood u cps s e cat p := by
  have cm : (',' : Char).utf8Size = 1 := rfl
  have cl : (':' : Char).utf8Size = 1 := rfl
  have lc : ('{' : Char).utf8Size = 1 := rfl
  have lp : ('(' : Char).utf8Size = 1 := rfl
  induction h with
  | here => intro n o hn; exact he n o hn
  | @composite p hd hp ih =>
    intro n o hn
    obtain ⟨m, rfl⟩ : ∃ m, n = m + 1 := ⟨n - 1, by omega⟩
    obtain ⟨c', hc'⟩ := hd
    simp only [parseValueN, parseValueStep, hc']
    rcases ih with ⟨r, rfl, ih⟩ | ⟨r, rfl, ih⟩
    · obtain ⟨t', ih⟩ := ih m o (by omega)
      simp only [List.cons_append] at ih ⊢
      rw [parseBuiltin_skip (not_prefix_head (by decide)) (not_prefix_head (by decide)) (by decide) (by decide) (by decide),
        parseNamed_none (by decide), ih]
      exact ⟨_, rfl⟩
    · obtain ⟨t', ih⟩ := ih m o (by omega)
      simp only [List.cons_append] at ih ⊢
      rw [parseBuiltin_skip (not_prefix_head (by decide)) (not_prefix_head (by decide)) (by decide) (by decide) (by decide),
        ih]
      exact ⟨_, rfl⟩
  | @variant nm sn w p hd hn' hw hp ih =>
    intro n o hn
    obtain ⟨m, rfl⟩ : ∃ m, n = m + 1 := ⟨n - 1, by omega⟩
    obtain ⟨c', hc'⟩ := hd
    simp only [parseValueN, parseValueStep, hc']
    have ht : ∃ b r, p = b :: r ∧ (b = '{' ∨ b = '(') := by
      rcases ih with ⟨r, rfl, _⟩ | ⟨r, rfl, _⟩
      · exact ⟨_, _, rfl, by simp⟩
      · exact ⟨_, _, rfl, by simp⟩
    have hid : HeadNot (identCh u) (w ++ (p ++ s)) := by
      refine headNot_ws_append hw (fun c h => ws_not_identCh h) ?_
      obtain ⟨b, r, rfl, rfl | rfl⟩ := ht <;>
        exact HeadNot_cons.2 (identCh_ascii_false (by decide) (by decide) (by decide))
    have hq : ∀ r', w ++ (p ++ s) ≠ '"' :: r' := by
      intro r' e
      cases w with
      | nil => obtain ⟨b, r, rfl, rfl | rfl⟩ := ht <;> simp at e
      | cons d w =>
        simp at e
        have := hw d (by simp)
        rw [e.1, ws_false_ascii (by decide) (by decide)] at this; cases this
    have htw : HeadNot u.ws (p ++ s) := (hp.goodHead impl hs).notWs
    have e1 : sn ++ w ++ p ++ s = sn ++ (w ++ (p ++ s)) := by simp [List.append_assoc]
    rw [e1]
    have hv : ∃ t', parseVariant u (parseValueN u cps m) ⟨sn ++ (w ++ (p ++ s)), o⟩ =
        some (.error (some (e (o + utf8Len (sn ++ w ++ p)))), t') := by
      unfold parseVariant
      rw [hn'.parse hid hq]
      simp only
      rw [skipWs_split hw htw]
      have hl : (p ++ s).length ≤ m := by simp at hn ⊢; omega
      have e2 : o + utf8Len (sn ++ w ++ p) = o + utf8Len sn + utf8Len w + utf8Len p := by simp; omega
      rcases ih with ⟨r, rfl, ih⟩ | ⟨r, rfl, ih⟩
      · obtain ⟨t', ih⟩ := ih m (o + utf8Len sn + utf8Len w) hl
        have : parseNamedComposite u (parseValueN u cps m) ⟨'(' :: r ++ s, o + utf8Len sn + utf8Len w⟩ =
            some (.error none, ⟨'(' :: r ++ s, o + utf8Len sn + utf8Len w⟩) := parseNamed_none (by decide)
        rw [this, ih, e2]
        exact ⟨_, rfl⟩
      · obtain ⟨t', ih⟩ := ih m (o + utf8Len sn + utf8Len w) hl
        rw [ih, e2]
        exact ⟨_, rfl⟩
    have key : ∃ c r, sn = c :: r ∧ c ≠ '\'' ∧ c ≠ '"' ∧ isDigit c = false ∧ c ≠ '+' ∧ c ≠ '-' ∧ c ≠ '{' ∧ c ≠ '(' ∧ c ≠ '<' := by
      cases hn' with
      | ident hi _ _ =>
        cases hi with
        | @mk c cs hc _ =>
          refine ⟨c, cs, rfl, ?_, ?_, ?_, ?_, ?_, ?_, ?_, ?_⟩
          case refine_3 =>
            cases hd : isDigit c with
            | false => rfl
            | true =>
              rw [u.alpha_ascii c (isDigit_lt hd)] at hc
              simp [isDigit, isAsciiLetter] at hd hc; omega
          all_goals exact alpha_ne hc _ (by decide) (by decide)
      | quoted _ => exact ⟨'v', _, rfl, by decide, by decide, by decide, by decide, by decide, by decide, by decide, by decide⟩
    have hb : ¬ ['t', 'r', 'u', 'e'] <+: sn ++ (w ++ (p ++ s)) ∧
        ¬ ['f', 'a', 'l', 's', 'e'] <+: sn ++ (w ++ (p ++ s)) := by
      cases hn' with
      | ident _ h1 h2 =>
        exact ⟨fun hp => h1 (prefix_of_append (letters_identCh _ (by decide)) hid hp),
          fun hp => h2 (prefix_of_append (letters_identCh _ (by decide)) hid hp)⟩
      | quoted _ => exact ⟨not_prefix_head (by decide), not_prefix_head (by decide)⟩
    obtain ⟨c', r', rfl, k1, k2, k3, k4, k5, k6, k7, k8⟩ := key
    obtain ⟨t', hv⟩ := hv
    simp only [List.cons_append] at hv hb ⊢
    rw [parseBuiltin_skip hb.1 hb.2 k1 k2 ⟨k3, k4, k5⟩, parseNamed_none k6, parseUnnamed_none k7,
      parseBitSequence_none (by intro r' e; simp at e; exact k8 e.1), hv]
    exact ⟨_, rfl⟩
  | @unnamedFirst w q hw hq ih =>
    refine .inl ⟨_, rfl, ?_⟩
    intro n o hn
    have e1 : '(' :: w ++ q ++ s = '(' :: w ++ (q ++ s) := by simp
    have e2 : o + utf8Len ('(' :: w ++ q) = o + 1 + utf8Len w + utf8Len q := by simp [lp]; omega
    obtain ⟨t', ih⟩ := ih n (o + 1 + utf8Len w) (by simp at hn ⊢; omega)
    rw [e1, e2]
    refine parseUnnamed_item hw (hq.goodHead impl hs) o (t := ⟨q ++ s, o + 1 + utf8Len w⟩) ?_
    simp only [sepByErr, ih]
  | @unnamedLater w vs x w3 w4 q hw hx hw3 hw4 hq ih =>
    refine .inl ⟨_, rfl, ?_⟩
    intro n o hn
    have e1 : '(' :: w ++ (x ++ w3 ++ ',' :: w4 ++ q) ++ s = '(' :: w ++ (x ++ (w3 ++ ',' :: w4 ++ (q ++ s))) := by simp
    have e2 : o + utf8Len ('(' :: w ++ (x ++ w3 ++ ',' :: w4 ++ q)) =
        o + 1 + utf8Len w + utf8Len x + utf8Len w3 + 1 + utf8Len w4 + utf8Len q := by simp [lp, cm]; omega
    obtain ⟨t', ih⟩ := ih n (o + 1 + utf8Len w + utf8Len x + utf8Len w3 + 1 + utf8Len w4) (by simp at hn ⊢; omega)
    obtain ⟨f0, t2, h1, h2, h3⟩ := vals_err impl hw3 hw4 (hq.goodHead impl hs) n _ hx (o + 1 + utf8Len w) t'
      (by simp at hn; omega) ih
    obtain ⟨t'', h3⟩ := h3 (t2.rest.length + 1) [f0] (by omega)
    rw [e1, e2]
    refine parseUnnamed_item hw ((hx.goodHead impl.head).append _) o (t := t'') ?_
    simp only [sepByErr, h1, h3]
  | @namedFirst w k n' w1 w2 q hw hk hw1 hw2 hq ih =>
    refine .inr ⟨_, rfl, ?_⟩
    intro n o hn
    have e1 : '{' :: w ++ (n' ++ w1 ++ ':' :: w2 ++ q) ++ s = '{' :: w ++ (n' ++ w1 ++ ':' :: w2 ++ (q ++ s)) := by simp
    have e2 : o + utf8Len ('{' :: w ++ (n' ++ w1 ++ ':' :: w2 ++ q)) =
      o + 1 + utf8Len w + utf8Len (n' ++ w1 ++ ':' :: w2) + utf8Len q := by simp [lc]; omega
    obtain ⟨t', ih⟩ := ih n (o + 1 + utf8Len w + utf8Len (n' ++ w1 ++ ':' :: w2)) (by simp at hn ⊢; omega)
    rw [e1, e2]
    refine parseNamed_item hw (by simpa [List.append_assoc] using hk.goodHead.append _) o
      (t := ⟨n' ++ w1 ++ ':' :: w2 ++ (q ++ s), o + 1 + utf8Len w⟩) ?_
    simp only [sepByErr]
    rw [parseField_value _ hk hw1 hw2 (hq.goodHead impl hs), ih]
  | @namedLater w fs x w3 w4 k n' w1 w2 q hw hx hw3 hw4 hk hw1 hw2 hq ih =>
    refine .inr ⟨_, rfl, ?_⟩
    intro n o hn
    have e1 : '{' :: w ++ (x ++ w3 ++ ',' :: w4 ++ (n' ++ w1 ++ ':' :: w2 ++ q)) ++ s =
      '{' :: w ++ (x ++ (w3 ++ ',' :: w4 ++ (n' ++ w1 ++ ':' :: w2 ++ (q ++ s)))) := by simp
    have e2 : o + utf8Len ('{' :: w ++ (x ++ w3 ++ ',' :: w4 ++ (n' ++ w1 ++ ':' :: w2 ++ q))) =
      o + 1 + utf8Len w + utf8Len x + utf8Len w3 + 1 + utf8Len w4 + utf8Len (n' ++ w1 ++ ':' :: w2) + utf8Len q := by
        simp [lc, cm]; omega
    obtain ⟨t', ih⟩ := ih n (o + 1 + utf8Len w + utf8Len x + utf8Len w3 + 1 + utf8Len w4 + utf8Len (n' ++ w1 ++ ':' :: w2))
      (by simp at hn ⊢; omega)
    have hgood : GoodHead u (n' ++ w1 ++ ':' :: w2 ++ (q ++ s)) := by
      simpa [List.append_assoc] using hk.goodHead.append _
    obtain ⟨f0, t2, h1, h2, h3⟩ := fields_err impl hw3 hw4 hgood n _ hx (o + 1 + utf8Len w) t'
      (by simp at hn; omega) (by
        rw [parseField_value _ hk hw1 hw2 (hq.goodHead impl hs), ih])
    obtain ⟨t'', h3⟩ := h3 (t2.rest.length + 1) [f0] (by omega)
    rw [e1, e2]
    refine parseNamed_item hw ((hx.goodHead impl.head).append _) o (t := t'') ?_
    simp only [sepByErr, h1, h3]

end SV
