import Verif.Proofs.FaultLex
/-
The parser reports the faults of Spec/Fault.lean: each fault makes the parser fail with that error.
-/
namespace SV

variable {u : Uni}

/-- What comes after the first item of a list in brackets fails with `e`. -/
def TailErr {α : Type} (u : Uni) (close : Char) (p : Nat) (e : ParseError)
    (r : Option (Except ParseError (List α) × Toks)) : Prop :=
  (∃ t', r = some (.error e, t')) ∨
  ∃ as t4, r = some (.ok as, t4) ∧ NoHead (· = close) (skipWs u t4).rest ∧
    e = (ParseErrorKind.expectedCloserToMatch close p).atOne (skipWs u t4).off

/-- A list in brackets fails with `e`. -/
def ListErr {α : Type} (u : Uni) (item : Toks → Option (Except ParseError α × Toks)) (close : Char) (p : Nat)
    (t : Toks) (e : ParseError) : Prop :=
  (∃ t', item t = some (.error e, t')) ∨
  ∃ a t2, item t = some (.ok a, t2) ∧ t2.rest.length ≤ t.rest.length ∧
    ∀ fuel acc, t2.rest.length < fuel → TailErr u close p e (sepRest item (skipSpacedSep u ',') fuel acc t2)

theorem ListErr.sepBy {α : Type} {item : Toks → Option (Except ParseError α × Toks)} {close : Char} {p : Nat}
    {t : Toks} {e : ParseError} (h : ListErr u item close p t e) :
    TailErr u close p e (sepByErr item (skipSpacedSep u ',') t) := by
  rcases h with ⟨t', h⟩ | ⟨a, t2, h1, h2, h3⟩
  · exact .inl ⟨t, by simp [sepByErr, h]⟩
  · simp only [sepByErr, h1]
    exact h3 _ _ (by omega)

/-- After an item and a comma. -/
theorem ListErr.next {α : Type} {item : Toks → Option (Except ParseError α × Toks)} {close : Char} {p o : Nat}
    {x w3 w4 s : Str} {e : ParseError} {a : α} (hw3 : Ws u w3) (hw4 : Ws u w4) (hs : NoHead (fun c => u.ws c = true) s)
    (hi : item ⟨x ++ (w3 ++ ',' :: w4 ++ s), o⟩ = some (.ok a, ⟨w3 ++ ',' :: w4 ++ s, o + utf8Len x⟩))
    (h : ListErr u item close p ⟨s, o + utf8Len (x ++ w3 ++ ',' :: w4)⟩ e) :
    ListErr u item close p ⟨x ++ w3 ++ ',' :: w4 ++ s, o⟩ e := by
  have cm : (',' : Char).utf8Size = 1 := rfl
  have e1 : x ++ w3 ++ ',' :: w4 ++ s = x ++ (w3 ++ ',' :: w4 ++ s) := by simp
  have e2 : o + utf8Len (x ++ w3 ++ ',' :: w4) = o + utf8Len x + utf8Len w3 + 1 + utf8Len w4 := by simp [cm]; omega
  rw [e1]
  rw [e2] at h
  refine .inr ⟨a, _, hi, by simp, ?_⟩
  intro fuel acc hf
  obtain ⟨f, rfl⟩ : ∃ f, fuel = f + 1 := ⟨fuel - 1, by omega⟩
  have hs := noHead_headNot.1 hs
  rcases h with ⟨t', h⟩ | ⟨b, t2, h1, h2, h3⟩
  · obtain ⟨t'', h'⟩ := sepRest_err (u := u) hw3 hw4 hs (o + utf8Len x) (f + 1) (by omega) acc h
    exact .inl ⟨t'', h'⟩
  · rw [sepRest_next hw3 hw4 hs _ _ _ h1]
    exact h3 _ _ (by simp at hf h2; omega)

/-- After the last item. -/
theorem ListErr.closing {α : Type} {item : Toks → Option (Except ParseError α × Toks)} {close : Char} {p o : Nat}
    {x w s : Str} {a : α} (hw : Ws u w) (hs : NoHead (fun c => u.ws c = true ∨ c = ',' ∨ c = close) s)
    (hi : item ⟨x ++ (w ++ s), o⟩ = some (.ok a, ⟨w ++ s, o + utf8Len x⟩)) :
    ListErr u item close p ⟨x ++ w ++ s, o⟩
      ((ParseErrorKind.expectedCloserToMatch close p).atOne (o + utf8Len (x ++ w))) := by
  rw [List.append_assoc]
  have hn : HeadNot u.ws s := noHead_headNot.1 (hs.mono fun c h => .inl h)
  refine .inr ⟨a, _, hi, by simp, ?_⟩
  intro fuel acc hf
  obtain ⟨f, rfl⟩ : ∃ f, fuel = f + 1 := ⟨fuel - 1, by omega⟩
  refine .inr ⟨acc, ⟨w ++ s, o + utf8Len x⟩, ?_, ?_, ?_⟩
  · have : ∃ t, skipSpacedSep u ',' ⟨w ++ s, o + utf8Len x⟩ = (false, t) := by
      unfold skipSpacedSep
      rw [skipWs_split hw hn]
      simp only [token_noHead (hs.mono fun c h => .inr (.inl h))]
      exact ⟨_, rfl⟩
    obtain ⟨t, ht⟩ := this
    simp only [sepRest, ht]
  · rw [skipWs_split hw hn]
    exact hs.mono fun c h => .inr (.inr h)
  · rw [skipWs_split hw hn]
    simp [Nat.add_assoc]

theorem ListErr.unnamed {pv : Toks → VRes} {o : Nat} {w s : Str} {e : ParseError} (hw : Ws u w)
    (hs : NoHead (fun c => u.ws c = true ∨ c = ')') s) (h : ListErr u pv ')' o ⟨s, o + utf8Len ('(' :: w)⟩ e) :
    ∃ t', parseUnnamedComposite u pv ⟨'(' :: w ++ s, o⟩ = some (.error (some e), t') := by
  have lp : ('(' : Char).utf8Size = 1 := rfl
  have hn : HeadNot u.ws s := noHead_headNot.1 (hs.mono fun c h => .inl h)
  simp only [parseUnnamedComposite, List.cons_append, token_eq, skipWs_split hw hn,
    token_noHead (hs.mono fun c h => .inr h)]
  have e1 : o + '('.utf8Size + utf8Len w = o + utf8Len ('(' :: w) := by simp; omega
  rw [e1]
  rcases h.sepBy with ⟨t', h⟩ | ⟨as, t4, h1, h2, rfl⟩
  · rw [h]; exact ⟨_, rfl⟩
  · rw [h1]
    simp only
    rw [show skipWs u t4 = ⟨(skipWs u t4).rest, (skipWs u t4).off⟩ from rfl, token_noHead h2]
    exact ⟨_, rfl⟩

theorem ListErr.named {pv : Toks → VRes} {o : Nat} {w s : Str} {e : ParseError} (hw : Ws u w)
    (hs : NoHead (fun c => u.ws c = true ∨ c = '}') s)
    (h : ListErr u (parseField u pv) '}' o ⟨s, o + utf8Len ('{' :: w)⟩ e) :
    ∃ t', parseNamedComposite u pv ⟨'{' :: w ++ s, o⟩ = some (.error (some e), t') := by
  have hn : HeadNot u.ws s := noHead_headNot.1 (hs.mono fun c h => .inl h)
  simp only [parseNamedComposite, List.cons_append, token_eq, skipWs_split hw hn,
    token_noHead (hs.mono fun c h => .inr h)]
  have e1 : o + '{'.utf8Size + utf8Len w = o + utf8Len ('{' :: w) := by simp; omega
  rw [e1]
  rcases h.sepBy with ⟨t', h⟩ | ⟨as, t4, h1, h2, rfl⟩
  · rw [h]; exact ⟨_, rfl⟩
  · rw [h1]
    simp only
    rw [show skipWs u t4 = ⟨(skipWs u t4).rest, (skipWs u t4).off⟩ from rfl, token_noHead h2]
    exact ⟨_, rfl⟩

/-- A field whose value can not be read. -/
theorem parseField_value' {pv : Toks → VRes} {k n w1 w2 y : Str} (o : Nat) (hk : FieldName u k n) (hw1 : Ws u w1)
    (hw2 : Ws u w2) (hy : NoHead (fun c => u.ws c = true) y) :
    parseField u pv ⟨n ++ w1 ++ ':' :: w2 ++ y, o⟩ =
      match pv ⟨y, o + utf8Len (n ++ w1 ++ ':' :: w2)⟩ with
      | none => none
      | some (.error e, t3) => some (.error e, t3)
      | some (.ok v, t3) => some (.ok (k, v), t3) := by
  have cl : (':' : Char).utf8Size = 1 := rfl
  have e : n ++ w1 ++ ':' :: w2 ++ y = n ++ (w1 ++ ':' :: w2 ++ y) := by simp [List.append_assoc]
  rw [e]
  unfold parseField
  rw [hk.parse (by
    rw [List.append_assoc]
    exact headNot_ws_append hw1 (fun c h => ws_not_identCh h)
      (HeadNot_cons.2 (identCh_ascii_false (by decide) (by decide) (by decide))))]
  simp only
  rw [skipSpacedSep_complete (ws_false_ascii (by decide) (by decide)) rfl hw1 hw2 (noHead_headNot.1 hy)]
  simp only
  have e2 : o + utf8Len n + utf8Len w1 + 1 + utf8Len w2 = o + utf8Len (n ++ w1 ++ ':' :: w2) := by
    simp [cl]; omega
  rw [e2]
  rfl

theorem field_text {v : Value Unit} {k x : Str} (h : Txt u NoCustom (.fields [(k, v)]) x) : ∃ n w1 w2 s,
    FieldName u k n ∧ Ws u w1 ∧ Ws u w2 ∧ Text u NoCustom v s ∧ x = n ++ w1 ++ ':' :: w2 ++ s := by
  cases h with
  | field1 hk hw1 hw2 h => exact ⟨_, _, _, _, hk, hw1, hw2, h, rfl⟩
  | fieldCons hk hw1 hw2 h hw3 hw4 hs => cases hs

theorem plainFollow_append {a x rest : Str} (hx : x ≠ []) : PlainFollow (a ++ x) rest ↔ PlainFollow x rest := by
  constructor
  · rintro h ⟨t, c, rfl, hc⟩
    exact h ⟨a ++ t, c, by simp, hc⟩
  · rintro h ⟨t, c, e, hc⟩
    refine h ?_
    obtain ⟨y, d, rfl⟩ : ∃ y d, x = y ++ [d] := ⟨_, _, (List.dropLast_concat_getLast hx).symm⟩
    rw [← List.append_assoc] at e
    obtain ⟨_, e2⟩ := List.append_inj' e rfl
    simp at e2
    exact ⟨y, d, rfl, e2 ▸ hc⟩

theorem text_ne_nil {v : Value Unit} {x : Str} (h : Text u NoCustom v x) : x ≠ [] := by
  obtain ⟨c, r, rfl, _⟩ := h.goodHead (fun v s h => h.elim)
  simp

theorem plain_ws_follow {x w s : Str} (hw : Ws u w) {c : Char} (hc : Delim u c) : PlainFollow x (w ++ c :: s) := by
  have impl := (Implements.plain (u := u)).chars
  exact follow_ws impl _ _ _ _ hw hc

/-- One value. -/
theorem value_item {v : Value Unit} {x rest : Str} (h : Text u NoCustom v x) (hf : PlainFollow x rest) (n o : Nat)
    (hn : x.length < n) : parseValueN u [] n ⟨x ++ rest, o⟩ = some (.ok v, ⟨rest, o + utf8Len x⟩) :=
  good (Implements.plain (u := u)).chars h n rest o hn hf

/-- One field. -/
theorem field_item' {v : Value Unit} {k x rest : Str} (h : Txt u NoCustom (.fields [(k, v)]) x) (hf : PlainFollow x rest)
    (n o : Nat) (hn : x.length < n) :
    parseField u (parseValueN u [] n) ⟨x ++ rest, o⟩ = some (.ok (k, v), ⟨rest, o + utf8Len x⟩) := by
  obtain ⟨m, w1, w2, s, hk, hw1, hw2, hs, rfl⟩ := field_text h
  have hg := hs.goodHead (u := u) (fun v s h => h.elim)
  rw [plainFollow_append (text_ne_nil hs)] at hf
  rw [List.append_assoc, parseField_value' o hk hw1 hw2 (noHead_headNot.2 (hg.append _).notWs),
    value_item hs hf n _ (by simp at hn; omega)]
  simp only [utf8Len_append, Nat.add_assoc]

/-- What is proved of faults in each category. -/
def FaultGood (u : Uni) : FaultCat → Nat → Str → ParseError → Prop
  | .val, o, s, e => ∀ n, s.length < n → ∃ t', parseValueN u [] n ⟨s, o⟩ = some (.error e, t')
  | .comp, o, s, e =>
      (∃ r, s = '(' :: r ∧ ∀ n, s.length ≤ n →
        ∃ t', parseUnnamedComposite u (parseValueN u [] n) ⟨s, o⟩ = some (.error (some e), t')) ∨
      (∃ r, s = '{' :: r ∧ ∀ n, s.length ≤ n →
        ∃ t', parseNamedComposite u (parseValueN u [] n) ⟨s, o⟩ = some (.error (some e), t'))
  | .vals p, o, s, e => ∀ n, s.length < n → ListErr u (parseValueN u [] n) ')' p ⟨s, o⟩ e
  | .fields p, o, s, e => ∀ n, s.length < n → ListErr u (parseField u (parseValueN u [] n)) '}' p ⟨s, o⟩ e

theorem step_builtin {n : Nat} {t : Toks} :
    parseValueN u [] (n + 1) t = parseBuiltin u (parseValueN u [] n) t := rfl

theorem named_isSome_err {pv : Toks → VRes} {r : Str} {o : Nat} {t' : Toks} :
    parseNamedComposite u pv ⟨'{' :: r, o⟩ ≠ some (.error none, t') := by
  simp only [parseNamedComposite, token_eq]
  split
  · simp
  · split
    · simp
    · simp
    · split <;> simp

theorem unnamed_isSome_err {pv : Toks → VRes} {r : Str} {o : Nat} {t' : Toks} :
    parseUnnamedComposite u pv ⟨'(' :: r, o⟩ ≠ some (.error none, t') := by
  simp only [parseUnnamedComposite, token_eq]
  split
  · simp
  · split
    · simp
    · simp
    · split <;> simp

/-- No variant, when there is no bracket after the name. -/
theorem parseVariant_none {pv : Toks → VRes} {s : Str} {o : Nat} (ht : ¬ ['t', 'r', 'u', 'e'] <+: s)
    (hf : ¬ ['f', 'a', 'l', 's', 'e'] <+: s)
    (h : ¬ ∃ n x w b r, VariantName u n x ∧ Ws u w ∧ (b = '(' ∨ b = '{') ∧ s = x ++ w ++ b :: r) :
    ∃ t', parseVariant u pv ⟨s, o⟩ = some (.error none, t') := by
  unfold parseVariant
  cases hv : parseOptionalVariantIdent u ⟨s, o⟩ with
  | mk x t1 =>
    cases x with
    | none => exact ⟨_, rfl⟩
    | some ident =>
      simp only
      have hn : ∃ x, VariantName u ident x ∧ s = x ++ t1.rest := by
        rcases parseOptionalVariantIdent_sound hv with ⟨x, hx, h1⟩ | ⟨hx, h1⟩
        · exact ⟨_, .quoted hx, h1⟩
        · refine ⟨_, .ident hx (fun hp => ht ?_) (fun hp => hf ?_), h1⟩ <;>
          · simp only at h1; rw [h1]; exact hp.trans (List.prefix_append _ _)
      obtain ⟨x, hx, h1⟩ := hn
      obtain ⟨w, hw, h2, _, _⟩ := skipWs_spec (u := u) t1
      have hb : ∀ b, b = '(' ∨ b = '{' → NoHead (· = b) (skipWs u t1).rest := by
        intro b hb
        rw [noHead_eq]
        intro r e
        exact h ⟨ident, x, w, b, r, hx, hw, hb, by rw [h1, h2, e]; simp⟩
      have e1 : parseNamedComposite u pv (skipWs u t1) = some (.error none, skipWs u t1) := by
        rw [parseNamedComposite, show skipWs u t1 = ⟨(skipWs u t1).rest, (skipWs u t1).off⟩ from rfl,
          token_noHead (hb '{' (.inr rfl))]
      have e2 : parseUnnamedComposite u pv (skipWs u t1) = some (.error none, skipWs u t1) := by
        rw [parseUnnamedComposite, show skipWs u t1 = ⟨(skipWs u t1).rest, (skipWs u t1).off⟩ from rfl,
          token_noHead (hb '(' (.inl rfl))]
      rw [e1, e2]
      exact ⟨_, rfl⟩

theorem NoValue.parse {pv : Toks → VRes} {s : Str} (h : NoValue u s) (o : Nat) :
    parseBuiltin u pv ⟨s, o⟩ = some (.error (ParseErrorKind.expectedValue.at o), ⟨s, o⟩) := by
  obtain ⟨t', hv⟩ := parseVariant_none (pv := pv) (o := o) h.notTrue h.notFalse h.notVariant
  cases s with
  | nil =>
    simp only [parseBuiltin, parseBool_none (t := ⟨[], o⟩) h.notTrue h.notFalse, parseChar_none (r := []) (o := o) (by simp),
      parseString_none (r := []) (o := o) (by simp), parseNumber_none (r := []) (o := o) (by simp),
      parseBitSequence_none (r := []) (o := o) (by simp), hv, PRes.map, orAlt, parseNamedComposite, parseUnnamedComposite, token_nil,
      Option.map]
  | cons c r =>
    have hc := h.head c r rfl
    simp only [List.mem_cons, List.not_mem_nil, or_false, not_or] at hc
    obtain ⟨h1, h2, h3, h4, h5, h6, h7, h8⟩ := hc
    rw [parseBuiltin_skip h.notTrue h.notFalse h2 h3 ⟨by simpa using h1, h4, h5⟩, parseNamed_none h6, parseUnnamed_none h7,
      parseBitSequence_none (by intro r' e; simp at e; exact h8 e.1), hv]
    rfl

theorem Fault.good {cat : FaultCat} {o : Nat} {s : Str} {e : ParseError} (h : Fault u cat o s e) :
    FaultGood u cat o s e := by
  induction h with
  | @noValue o s h =>
    intro n hn
    obtain ⟨m, rfl⟩ : ∃ m, n = m + 1 := ⟨n - 1, by omega⟩
    exact ⟨_, by rw [step_builtin]; exact h.parse o⟩
  | @char o s e h =>
    intro n hn
    obtain ⟨m, rfl⟩ : ∃ m, n = m + 1 := ⟨n - 1, by omega⟩
    obtain ⟨t', h1⟩ := h.parse
    have hb : parseBool ⟨s, o⟩ = (.error none, ⟨s, o⟩) := by
      cases h <;> exact parseBool_none (not_prefix_head (by decide)) (not_prefix_head (by decide))
    rw [step_builtin]
    simp only [parseBuiltin, hb, h1, PRes.map, orAlt]
    exact ⟨_, rfl⟩
  | @string o s e h =>
    intro n hn
    obtain ⟨m, rfl⟩ : ∃ m, n = m + 1 := ⟨n - 1, by omega⟩
    obtain ⟨t', h1⟩ := h.parse
    have hb : parseBool ⟨s, o⟩ = (.error none, ⟨s, o⟩) := by
      cases h <;> exact parseBool_none (not_prefix_head (by decide)) (not_prefix_head (by decide))
    have hc : parseChar ⟨s, o⟩ = (.error none, ⟨s, o⟩) := by
      cases h <;> exact parseChar_none (by simp)
    rw [step_builtin]
    simp only [parseBuiltin, hb, hc, h1, PRes.map, orAlt]
    exact ⟨_, rfl⟩
  | @number o s e h =>
    intro n hn
    obtain ⟨m, rfl⟩ : ∃ m, n = m + 1 := ⟨n - 1, by omega⟩
    obtain ⟨t', h1⟩ := h.parse
    have key : ∃ c r, s = c :: r ∧ c ≠ 't' ∧ c ≠ 'f' ∧ c ≠ '\'' ∧ c ≠ '"' := by
      cases h with
      | sign hc _ => rcases hc with rfl | rfl <;> exact ⟨_, _, rfl, by decide, by decide, by decide, by decide⟩
      | pos hs h _ _ =>
        rcases hs with rfl | rfl
        · obtain ⟨c, r, rfl, hc⟩ := h.head
          refine ⟨c, _, rfl, ?_, ?_, ?_, ?_⟩ <;> (rintro rfl; revert hc; decide)
        · exact ⟨_, _, rfl, by decide, by decide, by decide, by decide⟩
      | neg => exact ⟨_, _, rfl, by decide, by decide, by decide, by decide⟩
    obtain ⟨c, r, rfl, k1, k2, k3, k4⟩ := key
    have hb : parseBool ⟨c :: r, o⟩ = (.error none, ⟨c :: r, o⟩) :=
      parseBool_none (not_prefix_head k1.symm) (not_prefix_head k2.symm)
    have hc : parseChar ⟨c :: r, o⟩ = (.error none, ⟨c :: r, o⟩) :=
      parseChar_none (by intro r' e; simp at e; exact k3 e.1)
    have hs : parseString ⟨c :: r, o⟩ = (.error none, ⟨c :: r, o⟩) :=
      parseString_none (by intro r' e; simp at e; exact k4 e.1)
    rw [step_builtin]
    simp only [parseBuiltin, hb, hc, hs, h1, PRes.map, orAlt]
    exact ⟨_, rfl⟩
  | @bits o bs r h =>
    intro n hn
    obtain ⟨m, rfl⟩ : ∃ m, n = m + 1 := ⟨n - 1, by omega⟩
    obtain ⟨t', h1⟩ := bits_fault_parse (o := o) (bs := bs) h
    simp only [List.cons_append] at h1 ⊢
    rw [step_builtin, parseBuiltin_skip (not_prefix_head (by decide)) (not_prefix_head (by decide)) (by decide) (by decide) (by decide),
      parseNamed_none (by decide), parseUnnamed_none (by decide), h1]
    exact ⟨_, rfl⟩
  | @composite o s e h ih =>
    intro n hn
    obtain ⟨m, rfl⟩ : ∃ m, n = m + 1 := ⟨n - 1, by omega⟩
    rw [step_builtin]
    rcases ih with ⟨r, rfl, ih⟩ | ⟨r, rfl, ih⟩
    · obtain ⟨t', ih⟩ := ih m (by omega)
      rw [parseBuiltin_skip (not_prefix_head (by decide)) (not_prefix_head (by decide)) (by decide) (by decide) (by decide),
        parseNamed_none (by decide), ih]
      exact ⟨_, rfl⟩
    · obtain ⟨t', ih⟩ := ih m (by omega)
      rw [parseBuiltin_skip (not_prefix_head (by decide)) (not_prefix_head (by decide)) (by decide) (by decide) (by decide),
        ih]
      exact ⟨_, rfl⟩
  | @variant o nm sn w p e hn' hw h ih =>
    intro n hn
    obtain ⟨m, rfl⟩ : ∃ m, n = m + 1 := ⟨n - 1, by omega⟩
    rw [step_builtin]
    have ht : ∃ b r, p = b :: r ∧ (b = '{' ∨ b = '(') := by
      rcases ih with ⟨r, rfl, _⟩ | ⟨r, rfl, _⟩
      · exact ⟨_, _, rfl, by simp⟩
      · exact ⟨_, _, rfl, by simp⟩
    have hid : HeadNot (identCh u) (w ++ p) := by
      refine headNot_ws_append hw (fun c h => ws_not_identCh h) ?_
      obtain ⟨b, r, rfl, rfl | rfl⟩ := ht <;>
        exact HeadNot_cons.2 (identCh_ascii_false (by decide) (by decide) (by decide))
    have hq : ∀ r', w ++ p ≠ '"' :: r' := by
      intro r' e
      cases w with
      | nil => obtain ⟨b, r, rfl, rfl | rfl⟩ := ht <;> simp at e
      | cons d w =>
        simp at e
        have := hw d (by simp)
        rw [e.1, ws_false_ascii (by decide) (by decide)] at this; cases this
    have htw : HeadNot u.ws p := by
      obtain ⟨b, r, rfl, rfl | rfl⟩ := ht <;> exact HeadNot_cons.2 (ws_false_ascii (by decide) (by decide))
    have e1 : sn ++ w ++ p = sn ++ (w ++ p) := by simp [List.append_assoc]
    rw [e1]
    have hv : ∃ t', parseVariant u (parseValueN u [] m) ⟨sn ++ (w ++ p), o⟩ = some (.error (some e), t') := by
      unfold parseVariant
      rw [hn'.parse hid hq]
      simp only
      rw [skipWs_split hw htw]
      have hl : p.length ≤ m := by simp at hn ⊢; omega
      have e2 : o + utf8Len (sn ++ w) = o + utf8Len sn + utf8Len w := by simp; omega
      rw [e2] at ih
      rcases ih with ⟨r, rfl, ih⟩ | ⟨r, rfl, ih⟩
      · obtain ⟨t', ih⟩ := ih m hl
        rw [parseNamed_none (by decide), ih]
        exact ⟨_, rfl⟩
      · obtain ⟨t', ih⟩ := ih m hl
        rw [ih]
        exact ⟨_, rfl⟩
    have key : ∃ c r, sn = c :: r ∧ c ≠ '\'' ∧ c ≠ '"' ∧ isDigit c = false ∧ c ≠ '+' ∧ c ≠ '-' ∧ c ≠ '{' ∧ c ≠ '(' ∧ c ≠ '<' := by
      cases hn' with
      | ident hi _ _ =>
        cases hi with
        | @mk c cs hc _ =>
          refine ⟨c, cs, rfl, ?_, ?_, ?_, ?_, ?_, ?_, ?_, ?_⟩
          case refine_3 =>
            cases hd : isDigit c with
            | false => rfl
            | true =>
              rw [u.alpha_ascii c (isDigit_lt hd)] at hc
              simp [isDigit, isAsciiLetter] at hd hc; omega
          all_goals exact alpha_ne hc _ (by decide) (by decide)
      | quoted _ => exact ⟨'v', _, rfl, by decide, by decide, by decide, by decide, by decide, by decide, by decide, by decide⟩
    have hb : ¬ ['t', 'r', 'u', 'e'] <+: sn ++ (w ++ p) ∧ ¬ ['f', 'a', 'l', 's', 'e'] <+: sn ++ (w ++ p) := by
      cases hn' with
      | ident _ h1 h2 =>
        exact ⟨fun hp => h1 (prefix_of_append (letters_identCh _ (by decide)) hid hp),
          fun hp => h2 (prefix_of_append (letters_identCh _ (by decide)) hid hp)⟩
      | quoted _ => exact ⟨not_prefix_head (by decide), not_prefix_head (by decide)⟩
    obtain ⟨c', r', rfl, k1, k2, k3, k4, k5, k6, k7, k8⟩ := key
    obtain ⟨t', hv⟩ := hv
    simp only [List.cons_append] at hv hb ⊢
    rw [parseBuiltin_skip hb.1 hb.2 k1 k2 ⟨k3, k4, k5⟩, parseNamed_none k6, parseUnnamed_none k7,
      parseBitSequence_none (by intro r' e; simp at e; exact k8 e.1), hv]
    exact ⟨_, rfl⟩
  | @unnamed o w s e hw hs h ih =>
    exact .inl ⟨_, rfl, fun n hn => (ih n (by simp at hn; omega)).unnamed hw hs⟩
  | @named o w s e hw hs h ih =>
    exact .inr ⟨_, rfl, fun n hn => (ih n (by simp at hn; omega)).named hw hs⟩
  | @val p o s e h ih => exact fun n hn => .inl (ih n hn)
  | @valNext p o v x w3 w4 s e hx hw3 hw4 hs h ih =>
    intro n hn
    refine ListErr.next hw3 hw4 hs (value_item hx ?_ n o (by simp at hn; omega)) (ih n (by simp at hn; omega))
    rw [List.append_assoc]; exact plain_ws_follow hw3 (by simp [Delim])
  | @valClose p o v x w s hx hf hw hs =>
    intro n hn
    exact ListErr.closing hw hs (value_item hx hf n o (by simp at hn; omega))
  | @noName p o s h =>
    intro n hn
    refine .inl ?_
    have h1 : parseString ⟨s, o⟩ = (.error none, ⟨s, o⟩) :=
      parseString_none (noHead_eq.1 (h.mono fun c h => .inr h))
    have h2 : parseIdent u ⟨s, o⟩ = (.error (ParseErrorKind.invalidStartingCharacterInIdent.atOne o), ⟨s, o⟩) := by
      rcases parseIdent_cases (u := u) ⟨s, o⟩ with ⟨_, h2⟩ | ⟨c, cs, r, h1, h2, _⟩
      · exact h2
      · exact absurd (.inl h2) (h c _ h1)
    simp only [parseField, parseFieldName, h1, h2]
    exact ⟨_, rfl⟩
  | @nameString p o s e h =>
    intro n hn
    refine .inl ?_
    obtain ⟨t', h1⟩ := h.parse
    simp only [parseField, parseFieldName, h1]
    exact ⟨_, rfl⟩
  | @colon p o k nm w s hk hw hi hs =>
    intro n hn
    refine .inl ?_
    have hp : parseFieldName u ⟨nm ++ (w ++ s), o⟩ = (.ok k, ⟨w ++ s, o + utf8Len nm⟩) := by
      unfold parseFieldName
      cases hk with
      | ident h =>
        have hq : ∀ r', k ++ (w ++ s) ≠ '"' :: r' := by
          intro r' e
          cases h with
          | mk hc _ =>
            simp at e
            exact alpha_ne hc '"' (by decide) (by decide) e.1
        rw [parseString_none hq]
        have := hi h
        have : HeadNot (identCh u) (w ++ s) := noHead_headNot.1 (this.mono fun c hc => by simpa [identCh] using hc)
        simp only [h.parse this]
      | quoted h => simp only [parseString_complete h]
    have hn' : HeadNot u.ws s := noHead_headNot.1 (hs.mono fun c h => .inl h)
    rw [List.append_assoc]
    have hsep : skipSpacedSep u ':' ⟨w ++ s, o + utf8Len nm⟩ = (false, ⟨s, o + utf8Len (nm ++ w)⟩) := by
      unfold skipSpacedSep
      rw [skipWs_split hw hn']
      simp only [token_noHead (hs.mono fun c h => .inr h)]
      have := skipWs_split (u := u) (w := []) (by intro c h; cases h) hn' (o + utf8Len nm + utf8Len w)
      simp only [List.nil_append] at this
      rw [this]; simp [Nat.add_assoc]
    simp only [parseField, hp, hsep]
    exact ⟨_, rfl⟩
  | @field p o k nm w1 w2 s e hk hw1 hw2 hs h ih =>
    intro n hn
    refine .inl ?_
    obtain ⟨t', ih⟩ := ih n (by simp at hn; omega)
    rw [parseField_value' o hk hw1 hw2 hs, ih]
    exact ⟨_, rfl⟩
  | @fieldNext p o k v x w3 w4 s e hx hw3 hw4 hs h ih =>
    intro n hn
    refine ListErr.next hw3 hw4 hs (field_item' hx ?_ n o (by simp at hn; omega)) (ih n (by simp at hn; omega))
    rw [List.append_assoc]; exact plain_ws_follow hw3 (by simp [Delim])
  | @fieldClose p o k v x w s hx hf hw hs =>
    intro n hn
    exact ListErr.closing hw hs (field_item' hx hf n o (by simp at hn; omega))

/-- Each fault is reported. -/
theorem Fault.fromStr {s : Str} {e : ParseError} (h : Fault u .val 0 s e) :
    ∃ rest, SV.fromStr u s = some (.error e, rest) := by
  obtain ⟨t', h⟩ := h.good (s.length + 1) (by omega)
  exact ⟨t'.rest, by simp [SV.fromStr, parse, Toks.new, h]⟩

end SV
