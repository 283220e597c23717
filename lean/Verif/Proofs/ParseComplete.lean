import Verif.Proofs.LexNum
import Verif.Spec.Custom
/-
Completeness of the parser for the grammar: every text of a value parses to that value, with the rest left.
-/
namespace SV

variable {u : Uni}

/-- The plain language needs no custom parser. -/
theorem Implements.plain : Implements u [] NoCustom PlainFollow where
  sep := by
    intro s c r hc _
    simp only [NotNumCont]
    rcases hc with h | rfl | rfl | rfl
    · refine ⟨ws_not_digit h, ?_⟩
      rintro rfl
      rw [ws_false_ascii (by decide) (by decide)] at h; cases h
    all_goals decide
  num := by
    intro p s rest h hf
    apply hf
    have : ∀ {t n}, DecVal t n → EndsNum t := by
      intro t n h
      cases h with
      | single hc => exact ⟨[], _, rfl, .inl hc⟩
      | digit _ hc => exact ⟨_, _, rfl, .inl hc⟩
      | underscore _ => exact ⟨_, _, rfl, .inr rfl⟩
    have cons : ∀ {c t}, EndsNum t → EndsNum (c :: t) := by
      rintro c t ⟨t', d, rfl, h⟩; exact ⟨c :: t', d, rfl, h⟩
    cases h with
    | plain h => exact this h
    | plus h => exact cons (this h)
    | minus h _ => exact cons (this h)
  accept := by intro v s rest h; exact h.elim
  decline := by intro v s rest _ _; exact ⟨s ++ rest, rfl⟩
  head := by intro v s h; exact h.elim

/-! ### Heads -/

/-- Nonempty, and the first character is neither whitespace nor a closing bracket. -/
def GoodHead (u : Uni) (s : Str) : Prop := ∃ c r, s = c :: r ∧ u.ws c = false ∧ c ≠ ')' ∧ c ≠ '}'

theorem GoodHead.append {s : Str} (h : GoodHead u s) (t : Str) : GoodHead u (s ++ t) := by
  obtain ⟨c, r, rfl, h⟩ := h; exact ⟨c, r ++ t, rfl, h⟩

theorem goodHead_ascii {c : Char} {r : Str} (h1 : c.toNat < 128) (h2 : isAsciiWs c = false) (h3 : c ≠ ')')
    (h4 : c ≠ '}') : GoodHead u (c :: r) := ⟨c, r, rfl, ws_false_ascii h1 h2, h3, h4⟩

theorem alpha_ne {c : Char} (h : u.alpha c = true) (d : Char) (hd : d.toNat < 128) (hd2 : isAsciiLetter d = false) :
    c ≠ d := by
  rintro rfl; rw [u.alpha_ascii _ hd, hd2] at h; cases h

theorem Ident.goodHead {s : Str} (h : Ident u s) : GoodHead u s := by
  cases h with
  | mk hc _ => exact ⟨_, _, rfl, alpha_not_ws hc, alpha_ne hc _ (by decide) (by decide), alpha_ne hc _ (by decide) (by decide)⟩

theorem StrLit.goodHead {s t : Str} (h : StrLit s t) : GoodHead u t := by
  cases h; exact goodHead_ascii (by decide) (by decide) (by decide) (by decide)

theorem FieldName.goodHead {k n : Str} (h : FieldName u k n) : GoodHead u n := by
  cases h with
  | ident h => exact h.goodHead
  | quoted h => exact h.goodHead

theorem VariantName.goodHead {k n : Str} (h : VariantName u k n) : GoodHead u n := by
  cases h with
  | ident h _ _ => exact h.goodHead
  | quoted h => exact goodHead_ascii (by decide) (by decide) (by decide) (by decide)

theorem DecVal.goodHead {t : Str} {n : Nat} (h : DecVal t n) : GoodHead u t := by
  obtain ⟨c, cs, rfl, hc⟩ := h.head
  refine ⟨c, cs, rfl, isDigit_not_ws hc, ?_, ?_⟩ <;> (rintro rfl; revert hc; decide)

theorem NumLit.goodHead {p : Primitive} {t : Str} (h : NumLit p t) : GoodHead u t := by
  cases h with
  | plain h => exact h.goodHead
  | plus h => exact goodHead_ascii (by decide) (by decide) (by decide) (by decide)
  | minus h => exact goodHead_ascii (by decide) (by decide) (by decide) (by decide)

theorem CharLit.goodHead {c : Char} {t : Str} (h : CharLit c t) : GoodHead u t := by
  cases h <;> exact goodHead_ascii (by decide) (by decide) (by decide) (by decide)

theorem Txt.goodHead {X : Value Unit → Str → Prop} {cat : Cat} {s : Str}
    (hX : ∀ v s, X v s → GoodHead u s) (h : Txt u X cat s) : GoodHead u s := by
  induction h with
  | builtin _ ih => exact ih
  | custom h => exact hX _ _ h
  | true_ => exact goodHead_ascii (by decide) (by decide) (by decide) (by decide)
  | false_ => exact goodHead_ascii (by decide) (by decide) (by decide) (by decide)
  | char h => exact h.goodHead
  | string h => exact h.goodHead
  | number h => exact h.goodHead
  | bits => exact goodHead_ascii (by decide) (by decide) (by decide) (by decide)
  | composite _ ih => exact ih
  | variant hn _ _ _ => exact (hn.goodHead.append _).append _
  | namedEmpty _ => exact goodHead_ascii (by decide) (by decide) (by decide) (by decide)
  | unnamedEmpty _ => exact goodHead_ascii (by decide) (by decide) (by decide) (by decide)
  | named _ _ _ _ => exact goodHead_ascii (by decide) (by decide) (by decide) (by decide)
  | unnamed _ _ _ _ => exact goodHead_ascii (by decide) (by decide) (by decide) (by decide)
  | field1 hk _ _ _ _ => simpa [List.append_assoc] using hk.goodHead.append _
  | fieldCons hk _ _ _ _ _ _ _ _ => simpa [List.append_assoc] using hk.goodHead.append _
  | val1 _ ih => exact ih
  | valCons _ _ _ _ ih _ => simpa [List.append_assoc] using ih.append _

theorem GoodHead.notWs {s : Str} (h : GoodHead u s) : HeadNot u.ws s := by
  obtain ⟨c, r, rfl, h, _⟩ := h; exact HeadNot_cons.2 h

/-! ### Building blocks -/

theorem ascii_size (c : Char) (h : c.utf8Size = 1) (r : Str) (o : Nat) :
    Toks.token c ⟨c :: r, o⟩ = (true, ⟨r, o + 1⟩) := by rw [token_eq, h]

theorem skipSpacedSep_complete {s : Char} (hs : u.ws s = false) (hs1 : s.utf8Size = 1) {w1 w2 r : Str} (h1 : Ws u w1) (h2 : Ws u w2)
    (hr : HeadNot u.ws r) (o : Nat) :
    skipSpacedSep u s ⟨w1 ++ s :: w2 ++ r, o⟩ = (true, ⟨r, o + utf8Len w1 + 1 + utf8Len w2⟩) := by
  unfold skipSpacedSep
  rw [List.append_assoc, List.cons_append, skipWs_split h1 (HeadNot_cons.2 hs)]
  simp only [token_eq, skipWs_split h2 hr, hs1]

theorem skipSpacedSep_tail {w : Str} {c s : Char} (hc : u.ws c = false) (hcs : c ≠ s) (hw : Ws u w) (r : Str)
    (o : Nat) : (skipSpacedSep u s ⟨w ++ c :: r, o⟩).1 = false := by
  unfold skipSpacedSep
  rw [skipWs_split hw (HeadNot_cons.2 hc)]
  simp [token_ne hcs]

theorem headNot_ws_append {p : Char → Bool} {w r : Str} (hw : Ws u w) (hp : ∀ c, u.ws c = true → p c = false)
    (hr : HeadNot p r) : HeadNot p (w ++ r) := by
  cases w with
  | nil => exact hr
  | cons c w => exact HeadNot_cons.2 (hp c (hw c (by simp)))

theorem ws_not_identCh {c : Char} (h : u.ws c = true) : identCh u c = false := by
  have h2 : c ≠ '_' := by
    rintro rfl; rw [ws_false_ascii (by decide) (by decide)] at h; cases h
  simp [identCh, ws_not_alnum h, h2]

theorem identCh_ascii_false {c : Char} (h : c.toNat < 128) (h2 : isAsciiAlnum c = false) (h3 : c ≠ '_') :
    identCh u c = false := by
  simp [identCh, alnum_ascii h, h2, h3]

theorem FieldName.parse {k n : Str} (h : FieldName u k n) {rest : Str} (hr : HeadNot (identCh u) rest) (o : Nat) :
    parseFieldName u ⟨n ++ rest, o⟩ = (.ok k, ⟨rest, o + utf8Len n⟩) := by
  unfold parseFieldName
  cases h with
  | ident h =>
    have hq : ∀ r', k ++ rest ≠ '"' :: r' := by
      intro r' e
      cases h with
      | mk hc _ =>
        simp at e
        exact alpha_ne hc '"' (by decide) (by decide) e.1
    rw [parseString_none hq]
    simp only [h.parse hr]
  | quoted h => simp only [parseString_complete h]

theorem prefix_of_append {p a b : Str} (hp : ∀ c ∈ p, identCh u c = true) (hb : HeadNot (identCh u) b)
    (h : p <+: a ++ b) : p <+: a := by
  induction p generalizing a with
  | nil => exact List.nil_prefix
  | cons c p ih =>
    cases a with
    | nil =>
      obtain ⟨r, hr⟩ := h
      simp at hr
      have := hb c (p ++ r) hr.symm
      rw [hp c (by simp)] at this; cases this
    | cons d a =>
      simp only [List.cons_append, List.cons_prefix_cons] at h ⊢
      exact ⟨h.1, ih (fun c hc => hp c (by simp [hc])) h.2⟩

theorem letters_identCh (p : Str) (h : ∀ c ∈ p, c.toNat < 128 ∧ isAsciiLetter c = true) :
    ∀ c ∈ p, identCh u c = true := by
  intro c hc
  have := h c hc
  simp [identCh, alnum_ascii this.1, isAsciiAlnum, this.2]

/-- The condition under which `parse_value` gets to `parse_variant`, for a text that starts with a variant name. -/
theorem VariantName.parse {k n : Str} (h : VariantName u k n) {rest : Str} (hr : HeadNot (identCh u) rest)
    (hq : ∀ r', rest ≠ '"' :: r') (o : Nat) :
    parseOptionalVariantIdent u ⟨n ++ rest, o⟩ = (some k, ⟨rest, o + utf8Len n⟩) := by
  unfold parseOptionalVariantIdent
  cases h with
  | ident h h1 h2 =>
    have hi : ∃ t, parseIString ⟨k ++ rest, o⟩ = (none, t) := by
      have h' := h
      cases h with
      | @mk c cs hc hcs =>
        unfold parseIString
        simp only [List.cons_append, Toks.next]
        split
        · exact ⟨_, rfl⟩
        · have : ∀ r', cs ++ rest ≠ '"' :: r' := by
            intro r' e
            cases cs with
            | nil => exact hq r' e
            | cons d cs =>
              simp at e
              have := hcs d (by simp)
              rw [e.1] at this
              rw [alnum_ascii (by decide)] at this
              revert this; decide
          rw [parseString_none this]
          exact ⟨_, rfl⟩
    obtain ⟨t, hi⟩ := hi
    rw [hi]
    simp only [h.parse hr]
  | @quoted t h =>
    have hv : ('v' : Char).utf8Size = 1 := rfl
    have : parseIString ⟨'v' :: t ++ rest, o⟩ = (some k, ⟨rest, o + 1 + utf8Len t⟩) := by
      unfold parseIString
      simp only [List.cons_append, Toks.next, parseString_complete h]
      rfl
    rw [this]
    simp [hv]; omega

/-- Nothing before `parse_named_composite` matches. -/
theorem parseBuiltin_skip {pv : Toks → VRes} {c : Char} {r : Str} {o : Nat}
    (hb1 : ¬ ['t', 'r', 'u', 'e'] <+: c :: r) (hb2 : ¬ ['f', 'a', 'l', 's', 'e'] <+: c :: r)
    (hc : c ≠ '\'') (hs : c ≠ '"') (hn : isDigit c = false ∧ c ≠ '+' ∧ c ≠ '-') :
    parseBuiltin u pv ⟨c :: r, o⟩ =
      match (orAlt ((parseNamedComposite u pv ⟨c :: r, o⟩).map (PRes.map fun c => .mk (.composite c) ())) fun _ =>
        orAlt ((parseUnnamedComposite u pv ⟨c :: r, o⟩).map (PRes.map fun c => .mk (.composite c) ())) fun _ =>
        orAlt (some ((parseBitSequence ⟨c :: r, o⟩).map Value.bitSequence)) fun _ =>
        orAlt ((parseVariant u pv ⟨c :: r, o⟩).map (PRes.map fun v => .mk (.variant v) ())) fun _ =>
        some (.error none, ⟨c :: r, o⟩) : RRes (Value Unit)) with
      | none => none
      | some (.ok v, t1) => some (.ok v, t1)
      | some (.error (some e), t1) => some (.error e, t1)
      | some (.error none, t1) => some (.error (ParseErrorKind.expectedValue.at t1.off), t1) := by
  unfold parseBuiltin
  rw [parseBool_none hb1 hb2, parseChar_none (fun r' e => hc (by simpa using congrArg List.head? e)),
    parseString_none (fun r' e => hs (by simpa using congrArg List.head? e)),
    parseNumber_none (fun d r' e => by cases e; exact hn)]
  rfl

theorem not_prefix_head {p : Str} {c d : Char} {r : Str} (h : c ≠ d) : ¬ (c :: p) <+: (d :: r) := by
  rintro ⟨x, hx⟩
  simp at hx
  exact h hx.1

theorem parseNamed_none {pv : Toks → VRes} {c : Char} {r : Str} {o : Nat} (h : c ≠ '{') :
    parseNamedComposite u pv ⟨c :: r, o⟩ = some (.error none, ⟨c :: r, o⟩) := by
  simp [parseNamedComposite, token_ne h]

theorem parseUnnamed_none {pv : Toks → VRes} {c : Char} {r : Str} {o : Nat} (h : c ≠ '(') :
    parseUnnamedComposite u pv ⟨c :: r, o⟩ = some (.error none, ⟨c :: r, o⟩) := by
  simp [parseUnnamedComposite, token_ne h]

/-! ### The induction -/

/-- What is proved of each syntactic category. -/
def Good (u : Uni) (cps : List CustomParser) (Follow : Str → Str → Prop) : Cat → Str → Prop
  | .val v, s => ∀ n rest o, s.length < n → Follow s rest →
      parseValueN u cps n ⟨s ++ rest, o⟩ = some (.ok v, ⟨rest, o + utf8Len s⟩)
  | .blt v, s => ∀ n rest o, s.length ≤ n → Follow s rest →
      parseBuiltin u (parseValueN u cps n) ⟨s ++ rest, o⟩ = some (.ok v, ⟨rest, o + utf8Len s⟩)
  | .comp (.named fs), s => ∀ n rest o, s.length ≤ n →
      parseNamedComposite u (parseValueN u cps n) ⟨s ++ rest, o⟩ =
        some (.ok (.named fs), ⟨rest, o + utf8Len s⟩)
  | .comp (.unnamed vs), s => ∀ n rest o, s.length ≤ n →
      parseUnnamedComposite u (parseValueN u cps n) ⟨s ++ rest, o⟩ =
        some (.ok (.unnamed vs), ⟨rest, o + utf8Len s⟩)
  | .fields fs, s => ∀ n w r o, s.length < n → Ws u w → ∃ f0 fs' t2, fs = f0 :: fs' ∧
      parseField u (parseValueN u cps n) ⟨s ++ (w ++ '}' :: r), o⟩ = some (.ok f0, t2) ∧
      t2.rest.length ≤ (s ++ (w ++ '}' :: r)).length ∧
      ∀ fuel acc, t2.rest.length < fuel →
        sepRest (parseField u (parseValueN u cps n)) (skipSpacedSep u ',') fuel acc t2 =
          some (.ok (acc ++ fs'), ⟨w ++ '}' :: r, o + utf8Len s⟩)
  | .vals vs, s => ∀ n w r o, s.length < n → Ws u w → ∃ f0 fs' t2, vs = f0 :: fs' ∧
      parseValueN u cps n ⟨s ++ (w ++ ')' :: r), o⟩ = some (.ok f0, t2) ∧
      t2.rest.length ≤ (s ++ (w ++ ')' :: r)).length ∧
      ∀ fuel acc, t2.rest.length < fuel →
        sepRest (parseValueN u cps n) (skipSpacedSep u ',') fuel acc t2 =
          some (.ok (acc ++ fs'), ⟨w ++ ')' :: r, o + utf8Len s⟩)

/-- `sepRest` at the end of a list. -/
theorem sepRest_end {α : Type} {item : Toks → Option (Except ParseError α × Toks)} {w : Str} {c : Char}
    (hc : u.ws c = false) (hcs : c ≠ ',') (hw : Ws u w) (r : Str) (o fuel : Nat) (hf : 0 < fuel) (acc : List α) :
    sepRest item (skipSpacedSep u ',') fuel acc ⟨w ++ c :: r, o⟩ = some (.ok acc, ⟨w ++ c :: r, o⟩) := by
  obtain ⟨f, rfl⟩ : ∃ f, fuel = f + 1 := ⟨fuel - 1, by omega⟩
  have := skipSpacedSep_tail (s := ',') hc hcs hw r o
  unfold sepRest
  split
  · rfl
  · next h => rw [h] at this; cases this

/-- `sepRest` over a separator and the next item. -/
theorem sepRest_next {α : Type} {item : Toks → Option (Except ParseError α × Toks)} {w3 w4 t : Str}
    (h3 : Ws u w3) (h4 : Ws u w4) (ht : HeadNot u.ws t) (o fuel : Nat) (acc : List α) {a : α} {t2 : Toks}
    (hi : item ⟨t, o + utf8Len w3 + 1 + utf8Len w4⟩ = some (.ok a, t2)) :
    sepRest item (skipSpacedSep u ',') (fuel + 1) acc ⟨w3 ++ ',' :: w4 ++ t, o⟩ =
      sepRest item (skipSpacedSep u ',') fuel (acc ++ [a]) t2 := by
  rw [sepRest, skipSpacedSep_complete (ws_false_ascii (by decide) (by decide)) rfl h3 h4 ht]
  simp only [hi]

theorem nextN_ascii : ∀ (s rest : Str) (o : Nat), (∀ c ∈ s, c.utf8Size = 1) →
    Toks.nextN s.length ⟨s ++ rest, o⟩ = ⟨rest, o + utf8Len s⟩ := by
  intro s
  induction s with
  | nil => intro rest o _; rfl
  | cons c s ih =>
    intro rest o h
    simp only [List.length_cons, List.cons_append, Toks.nextN, Toks.next]
    rw [ih rest _ (fun c hc => h c (by simp [hc]))]
    simp; omega

theorem utf8Len_ascii {s : Str} (h : ∀ c ∈ s, c.utf8Size = 1) : utf8Len s = s.length := by
  induction s with
  | nil => rfl
  | cons c s ih => simp [ih (fun c hc => h c (by simp [hc])), h c (by simp)]; omega

theorem nextN_take : ∀ (s rest : Str) (k o : Nat), (s ++ rest).take k = s →
    Toks.nextN k ⟨s ++ rest, o⟩ = ⟨rest, o + utf8Len s⟩ := by
  intro s
  induction s with
  | nil =>
    intro rest k o h
    cases k with
    | zero => rfl
    | succ k =>
      cases rest with
      | nil =>
        have : ∀ k, Toks.nextN k ⟨[], o⟩ = ⟨[], o⟩ := by
          intro k; induction k with
          | zero => rfl
          | succ k ih => simpa [Toks.nextN, Toks.next] using ih
        simpa using this (k + 1)
      | cons c r => simp at h
  | cons c s ih =>
    intro rest k o h
    cases k with
    | zero => simp at h
    | succ k =>
      simp only [List.cons_append, List.take_succ_cons, List.cons.injEq, true_and] at h
      simp only [List.cons_append, Toks.nextN, Toks.next]
      rw [ih rest k _ h]
      simp; omega

theorem Implements.chars {cps : List CustomParser} {X : Value Unit → Str → Prop} {Follow : Str → Str → Prop}
    (impl : Implements u cps X Follow) : ImplementsChars u cps X Follow where
  sep := impl.sep
  num := impl.num
  accept := by
    intro v s rest h hf
    obtain ⟨h1, h2⟩ := impl.accept v s rest h hf
    refine ⟨rest, h1, ?_⟩
    rw [utf8Len_append, Nat.add_sub_cancel, utf8Len_ascii h2]
    simp
  decline := impl.decline
  head := impl.head

theorem ImplementsChars.on {cps : List CustomParser} {X : Value Unit → Str → Prop} {Follow : Str → Str → Prop}
    (impl : ImplementsChars u cps X Follow) : ImplementsOn u cps X Follow (fun _ => True) where
  hered := fun _ _ _ _ => trivial
  sep := by
    intro s w c r hw hc
    cases w with
    | nil => exact impl.sep _ _ _ (by rcases hc with rfl | rfl | rfl <;> simp [Delim])
    | cons d w => exact impl.sep _ _ _ (.inl (hw d (by simp)))
  num := impl.num
  accept := impl.accept
  decline := fun v s rest _ h hf => impl.decline v s rest h hf
  head := impl.head

theorem goodOn {cps : List CustomParser} {X : Value Unit → Str → Prop} {Follow : Str → Str → Prop} {P : Value Unit → Prop}
    (impl : ImplementsOn u cps X Follow P) {cat : Cat} {s : Str} (h : Txt u X cat s) :
    cat.All P → Good u cps Follow cat s := by
  have gh : ∀ {cat s}, Txt u X cat s → GoodHead u s := fun h => h.goodHead impl.head
  have lc : ('{' : Char).utf8Size = 1 := rfl
  have rc : ('}' : Char).utf8Size = 1 := rfl
  have lp : ('(' : Char).utf8Size = 1 := rfl
  have rp : (')' : Char).utf8Size = 1 := rfl
  have cm : (',' : Char).utf8Size = 1 := rfl
  have cl : (':' : Char).utf8Size = 1 := rfl
  -- a value followed by optional whitespace and a delimiter
  have follow_ws : ∀ (s w : Str) (c : Char) (r : Str), Ws u w → (c = ',' ∨ c = ')' ∨ c = '}') → Follow s (w ++ c :: r) :=
    fun s w c r hw hc => impl.sep s w c r hw hc
  -- one field
  have field_item : ∀ {k : Str} {v : Value Unit} {n s w1 w2 : Str} {rest : Str} (m o : Nat), FieldName u k n → Ws u w1 → Ws u w2 →
      Txt u X (.val v) s → Good u cps Follow (.val v) s → s.length < m → Follow s rest →
      parseField u (parseValueN u cps m) ⟨n ++ w1 ++ ':' :: w2 ++ s ++ rest, o⟩ =
        some (.ok (k, v), ⟨rest, o + utf8Len (n ++ w1 ++ ':' :: w2 ++ s)⟩) := by
    intro k v n s w1 w2 rest m o hk hw1 hw2 hs ih hm hf
    have e : n ++ w1 ++ ':' :: w2 ++ s ++ rest = n ++ (w1 ++ ':' :: w2 ++ (s ++ rest)) := by
      simp [List.append_assoc]
    rw [e]
    unfold parseField
    rw [hk.parse (by
      rw [List.append_assoc]
      exact headNot_ws_append hw1 (fun c h => ws_not_identCh h)
        (HeadNot_cons.2 (identCh_ascii_false (by decide) (by decide) (by decide))))]
    simp only
    rw [skipSpacedSep_complete (ws_false_ascii (by decide) (by decide)) rfl hw1 hw2 ((gh hs).append rest).notWs]
    simp only
    rw [ih m rest _ hm hf]
    simp [cl]; omega
  induction h with
  | @builtin v s h ih =>
    intro hP
    replace ih := ih hP
    intro n rest o hn hf
    obtain ⟨m, rfl⟩ : ∃ m, n = m + 1 := ⟨n - 1, by omega⟩
    obtain ⟨c', hc'⟩ := impl.decline v s rest hP h hf
    simp only [parseValueN, parseValueStep, hc']
    exact ih m rest o (by omega) hf
  | @custom v s h =>
    intro hP
    intro n rest o hn hf
    obtain ⟨m, rfl⟩ : ∃ m, n = m + 1 := ⟨n - 1, by omega⟩
    obtain ⟨left, h1, h2⟩ := impl.accept v s rest h hf
    simp only [parseValueN, parseValueStep, h1]
    rw [nextN_take s rest _ o h2]
  | true_ => intro hP; intro n rest o hn hf; rw [parseBuiltin, parseBool_true]; rfl
  | false_ => intro hP; intro n rest o hn hf; rw [parseBuiltin, parseBool_false]; rfl
  | @char c s h =>
    intro hP
    intro n rest o hn hf
    have hb : parseBool ⟨s ++ rest, o⟩ = (.error none, ⟨s ++ rest, o⟩) := by
      cases h <;> exact parseBool_none (not_prefix_head (by decide)) (not_prefix_head (by decide))
    simp [parseBuiltin, hb, parseChar_complete h, PRes.map, orAlt]
  | @string s t h =>
    intro hP
    intro n rest o hn hf
    have hb : parseBool ⟨t ++ rest, o⟩ = (.error none, ⟨t ++ rest, o⟩) := by
      cases h; exact parseBool_none (not_prefix_head (by decide)) (not_prefix_head (by decide))
    have hc : parseChar ⟨t ++ rest, o⟩ = (.error none, ⟨t ++ rest, o⟩) := by
      cases h; exact parseChar_none (by simp)
    simp [parseBuiltin, hb, hc, parseString_complete h, PRes.map, orAlt]
  | @number p s h =>
    intro hP
    intro n rest o hn hf
    have key : ∃ c r, s = c :: r ∧ c ≠ 't' ∧ c ≠ 'f' ∧ c ≠ '\'' ∧ c ≠ '"' := by
      have dig : ∀ {t n}, DecVal t n → ∃ c r, t = c :: r ∧ c ≠ 't' ∧ c ≠ 'f' ∧ c ≠ '\'' ∧ c ≠ '"' := by
        intro t n h
        obtain ⟨c, r, rfl, hc⟩ := h.head
        refine ⟨c, r, rfl, ?_, ?_, ?_, ?_⟩ <;> (rintro rfl; revert hc; decide)
      cases h with
      | plain h => exact dig h
      | plus h => exact ⟨_, _, rfl, by decide, by decide, by decide, by decide⟩
      | minus h => exact ⟨_, _, rfl, by decide, by decide, by decide, by decide⟩
    have hnum := parseNumber_complete h (impl.num p s rest h hf) o
    obtain ⟨c, r, rfl, k1, k2, k3, k4⟩ := key
    have hb : parseBool ⟨c :: r ++ rest, o⟩ = (.error none, ⟨c :: r ++ rest, o⟩) :=
      parseBool_none (not_prefix_head k1.symm) (not_prefix_head k2.symm)
    have hc : parseChar ⟨c :: r ++ rest, o⟩ = (.error none, ⟨c :: r ++ rest, o⟩) :=
      parseChar_none (by intro r' e; simp at e; exact k3 e.1)
    have hs : parseString ⟨c :: r ++ rest, o⟩ = (.error none, ⟨c :: r ++ rest, o⟩) :=
      parseString_none (by intro r' e; simp at e; exact k4 e.1)
    simp only [parseBuiltin, hb, hc, hs, hnum, PRes.map, orAlt]
  | @bits bs =>
    intro hP
    intro n rest o hn hf
    have := parseBitSequence_complete bs rest o
    simp only [List.cons_append] at this ⊢
    rw [parseBuiltin_skip (not_prefix_head (by decide)) (not_prefix_head (by decide)) (by decide) (by decide) (by decide),
      parseNamed_none (by decide), parseUnnamed_none (by decide), this]
    rfl
  | @composite c s h ih =>
    intro hP
    replace ih := ih (fun w hw => impl.hered _ w hP (by cases c <;> exact hw))
    intro n rest o hn hf
    cases c with
    | named fs =>
      have ih := ih n rest o hn
      have hs : ∃ r, s = '{' :: r := by cases h <;> exact ⟨_, rfl⟩
      obtain ⟨r, rfl⟩ := hs
      simp only [List.cons_append] at ih ⊢
      rw [parseBuiltin_skip (not_prefix_head (by decide)) (not_prefix_head (by decide)) (by decide) (by decide) (by decide),
        ih]
      rfl
    | unnamed vs =>
      have ih := ih n rest o hn
      have hs : ∃ r, s = '(' :: r := by cases h <;> exact ⟨_, rfl⟩
      obtain ⟨r, rfl⟩ := hs
      simp only [List.cons_append] at ih ⊢
      rw [parseBuiltin_skip (not_prefix_head (by decide)) (not_prefix_head (by decide)) (by decide) (by decide) (by decide),
        parseNamed_none (by decide), ih]
      rfl
  | @variant nm c s t w hn' hw h ih =>
    intro hP
    replace ih := ih (fun w hw => impl.hered _ w hP (by cases c <;> exact hw))
    intro n rest o hn hf
    have ht : ∃ b r, t = b :: r ∧ (b = '{' ∨ b = '(') := by
      cases h <;> exact ⟨_, _, rfl, by simp⟩
    -- what follows the name
    have hid : HeadNot (identCh u) (w ++ (t ++ rest)) := by
      refine headNot_ws_append hw (fun c h => ws_not_identCh h) ?_
      obtain ⟨b, r, rfl, rfl | rfl⟩ := ht <;>
        exact HeadNot_cons.2 (identCh_ascii_false (by decide) (by decide) (by decide))
    have hq : ∀ r', w ++ (t ++ rest) ≠ '"' :: r' := by
      intro r' e
      cases w with
      | nil => obtain ⟨b, r, rfl, rfl | rfl⟩ := ht <;> simp at e
      | cons d w =>
        simp at e
        have := hw d (by simp)
        rw [e.1, ws_false_ascii (by decide) (by decide)] at this; cases this
    have htw : HeadNot u.ws (t ++ rest) := ((gh h).append rest).notWs
    have e : s ++ w ++ t ++ rest = s ++ (w ++ (t ++ rest)) := by simp [List.append_assoc]
    rw [e]
    -- the variant itself
    have hv : parseVariant u (parseValueN u cps n) ⟨s ++ (w ++ (t ++ rest)), o⟩ =
        some (.ok (.mk nm c), ⟨rest, o + utf8Len (s ++ w ++ t)⟩) := by
      unfold parseVariant
      rw [hn'.parse hid hq]
      simp only
      rw [skipWs_split hw htw]
      have hl : t.length ≤ n := by simp at hn; omega
      cases c with
      | named fs =>
        rw [ih n rest _ hl]
        simp [orAlt]; omega
      | unnamed vs =>
        have : parseNamedComposite u (parseValueN u cps n) ⟨t ++ rest, o + utf8Len s + utf8Len w⟩ =
            some (.error none, ⟨t ++ rest, o + utf8Len s + utf8Len w⟩) := by
          cases h <;> exact parseNamed_none (by decide)
        rw [this, ih n rest _ hl]
        simp [orAlt]; omega
    -- nothing else matches before
    have key : ∃ c r, s = c :: r ∧ c ≠ '\'' ∧ c ≠ '"' ∧ isDigit c = false ∧ c ≠ '+' ∧ c ≠ '-' ∧ c ≠ '{' ∧ c ≠ '(' ∧ c ≠ '<' := by
      cases hn' with
      | ident hi _ _ =>
        cases hi with
        | @mk c cs hc _ =>
          refine ⟨c, cs, rfl, ?_, ?_, ?_, ?_, ?_, ?_, ?_, ?_⟩
          case refine_3 =>
            cases hd : isDigit c with
            | false => rfl
            | true =>
              rw [u.alpha_ascii c (isDigit_lt hd)] at hc
              simp [isDigit, isAsciiLetter] at hd hc; omega
          all_goals exact alpha_ne hc _ (by decide) (by decide)
      | quoted _ => exact ⟨'v', _, rfl, by decide, by decide, by decide, by decide, by decide, by decide, by decide, by decide⟩
    have hb : ¬ ['t', 'r', 'u', 'e'] <+: s ++ (w ++ (t ++ rest)) ∧
        ¬ ['f', 'a', 'l', 's', 'e'] <+: s ++ (w ++ (t ++ rest)) := by
      cases hn' with
      | ident _ h1 h2 =>
        exact ⟨fun hp => h1 (prefix_of_append (letters_identCh _ (by decide)) hid hp),
          fun hp => h2 (prefix_of_append (letters_identCh _ (by decide)) hid hp)⟩
      | quoted _ => exact ⟨not_prefix_head (by decide), not_prefix_head (by decide)⟩
    obtain ⟨c', r', rfl, k1, k2, k3, k4, k5, k6, k7, k8⟩ := key
    simp only [List.cons_append] at hv hb ⊢
    rw [parseBuiltin_skip hb.1 hb.2 k1 k2 ⟨k3, k4, k5⟩, parseNamed_none k6, parseUnnamed_none k7,
      parseBitSequence_none (by intro r' e; simp at e; exact k8 e.1), hv]
    rfl
  | @namedEmpty w hw =>
    intro hP
    intro n rest o hn
    have e : '{' :: w ++ ['}'] ++ rest = '{' :: (w ++ '}' :: rest) := by simp
    rw [e]
    simp only [parseNamedComposite, token_eq]
    rw [skipWs_split hw (HeadNot_cons.2 (ws_false_ascii (by decide) (by decide)))]
    simp only [token_eq]
    simp [lc, rc]; omega
  | @unnamedEmpty w hw =>
    intro hP
    intro n rest o hn
    have e : '(' :: w ++ [')'] ++ rest = '(' :: (w ++ ')' :: rest) := by simp
    rw [e]
    simp only [parseUnnamedComposite, token_eq]
    rw [skipWs_split hw (HeadNot_cons.2 (ws_false_ascii (by decide) (by decide)))]
    simp only [token_eq]
    simp [lp, rp]; omega
  | @named fs w1 w2 s hw1 hw2 h ih =>
    intro hP
    replace ih := ih (by intro p hp; exact hP p.2 (List.mem_map.2 ⟨p, hp, rfl⟩))
    intro n rest o hn
    have e : '{' :: w1 ++ s ++ w2 ++ ['}'] ++ rest = '{' :: (w1 ++ (s ++ (w2 ++ '}' :: rest))) := by simp
    rw [e]
    simp only [parseNamedComposite, token_eq]
    rw [skipWs_split hw1 ((gh h).append _).notWs]
    have hl : s.length < n := by simp at hn; omega
    obtain ⟨f0, fs', t2, rfl, h1, h2, h3⟩ := ih n w2 rest (o + '{'.utf8Size + utf8Len w1) hl hw2
    have hb : Toks.token '}' ⟨s ++ (w2 ++ '}' :: rest), o + '{'.utf8Size + utf8Len w1⟩ =
        (false, ⟨s ++ (w2 ++ '}' :: rest), o + '{'.utf8Size + utf8Len w1⟩) := by
      obtain ⟨c, r, rfl, _, _, hc⟩ := gh h
      exact token_ne hc _ _
    rw [hb]
    simp only [sepByErr, h1]
    rw [h3 _ _ (by omega)]
    simp only
    rw [skipWs_split hw2 (HeadNot_cons.2 (ws_false_ascii (by decide) (by decide)))]
    simp only [token_eq]
    simp [lc, rc]; omega
  | @unnamed fs w1 w2 s hw1 hw2 h ih =>
    intro hP
    replace ih := ih hP
    intro n rest o hn
    have e : '(' :: w1 ++ s ++ w2 ++ [')'] ++ rest = '(' :: (w1 ++ (s ++ (w2 ++ ')' :: rest))) := by simp
    rw [e]
    simp only [parseUnnamedComposite, token_eq]
    rw [skipWs_split hw1 ((gh h).append _).notWs]
    have hl : s.length < n := by simp at hn; omega
    obtain ⟨f0, fs', t2, rfl, h1, h2, h3⟩ := ih n w2 rest (o + '('.utf8Size + utf8Len w1) hl hw2
    have hb : Toks.token ')' ⟨s ++ (w2 ++ ')' :: rest), o + '('.utf8Size + utf8Len w1⟩ =
        (false, ⟨s ++ (w2 ++ ')' :: rest), o + '('.utf8Size + utf8Len w1⟩) := by
      obtain ⟨c, r, rfl, _, hc, _⟩ := gh h
      exact token_ne hc _ _
    rw [hb]
    simp only [sepByErr, h1]
    rw [h3 _ _ (by omega)]
    simp only
    rw [skipWs_split hw2 (HeadNot_cons.2 (ws_false_ascii (by decide) (by decide)))]
    simp only [token_eq]
    simp [lp, rp]; omega
  | @field1 k v n s w1 w2 hk hw1 hw2 h ih =>
    intro hP
    replace ih := ih (hP (k, v) (by simp))
    intro m w r o hm hw
    refine ⟨(k, v), [], ⟨w ++ '}' :: r, o + utf8Len (n ++ w1 ++ ':' :: w2 ++ s)⟩, rfl, ?_, ?_, ?_⟩
    · exact field_item m o hk hw1 hw2 h ih (by simp at hm; omega) (follow_ws _ _ _ _ hw (by simp))
    · simp; omega
    · intro fuel acc hfuel
      rw [sepRest_end (ws_false_ascii (by decide) (by decide)) (by decide) hw _ _ _ (by omega)]
      simp
  | @fieldCons k v n s w1 w2 w3 w4 fs t hk hw1 hw2 h hw3 hw4 hs ih1 ih2 =>
    intro hP
    replace ih1 := ih1 (hP (k, v) (by simp))
    replace ih2 := ih2 (fun p hp => hP p (by simp [hp]))
    intro m w r o hm hw
    refine ⟨(k, v), fs, ⟨w3 ++ ',' :: w4 ++ (t ++ (w ++ '}' :: r)), o + utf8Len (n ++ w1 ++ ':' :: w2 ++ s)⟩, rfl, ?_, ?_, ?_⟩
    · have e : n ++ w1 ++ ':' :: w2 ++ s ++ w3 ++ ',' :: w4 ++ t ++ (w ++ '}' :: r) =
          n ++ w1 ++ ':' :: w2 ++ s ++ (w3 ++ ',' :: w4 ++ (t ++ (w ++ '}' :: r))) := by simp
      rw [e]
      refine field_item m o hk hw1 hw2 h ih1 (by simp at hm; omega) ?_
      rw [List.append_assoc]
      exact follow_ws _ _ _ _ hw3 (by simp)
    · simp; omega
    · intro fuel acc hfuel
      obtain ⟨f, rfl⟩ : ∃ f, fuel = f + 1 := ⟨fuel - 1, by omega⟩
      obtain ⟨f0, fs', t2, rfl, h1, h2, h3⟩ := ih2 m w r (o + utf8Len (n ++ w1 ++ ':' :: w2 ++ s) + utf8Len w3 + 1 + utf8Len w4)
        (by simp at hm; omega) hw
      rw [sepRest_next hw3 hw4 ((gh hs).append _).notWs _ _ _ h1, h3 f _ (by simp at hfuel h2; omega)]
      simp [cm]; omega
  | @val1 v s h ih =>
    intro hP
    replace ih := ih (hP v (by simp))
    intro m w r o hm hw
    refine ⟨v, [], ⟨w ++ ')' :: r, o + utf8Len s⟩, rfl, ?_, ?_, ?_⟩
    · exact ih m _ o hm (follow_ws _ _ _ _ hw (by simp))
    · simp
    · intro fuel acc hfuel
      rw [sepRest_end (ws_false_ascii (by decide) (by decide)) (by decide) hw _ _ _ (by omega)]
      simp
  | @valCons v s w3 w4 vs t h hw3 hw4 hs ih1 ih2 =>
    intro hP
    replace ih1 := ih1 (hP v (by simp))
    replace ih2 := ih2 (fun p hp => hP p (by simp [hp]))
    intro m w r o hm hw
    refine ⟨v, vs, ⟨w3 ++ ',' :: w4 ++ (t ++ (w ++ ')' :: r)), o + utf8Len s⟩, rfl, ?_, ?_, ?_⟩
    · have e : s ++ w3 ++ ',' :: w4 ++ t ++ (w ++ ')' :: r) =
          s ++ (w3 ++ ',' :: w4 ++ (t ++ (w ++ ')' :: r))) := by simp
      rw [e]
      refine ih1 m _ o (by simp at hm; omega) ?_
      rw [List.append_assoc]
      exact follow_ws _ _ _ _ hw3 (by simp)
    · simp
    · intro fuel acc hfuel
      obtain ⟨f, rfl⟩ : ∃ f, fuel = f + 1 := ⟨fuel - 1, by omega⟩
      obtain ⟨f0, fs', t2, rfl, h1, h2, h3⟩ := ih2 m w r (o + utf8Len s + utf8Len w3 + 1 + utf8Len w4)
        (by simp at hm; omega) hw
      rw [sepRest_next hw3 hw4 ((gh hs).append _).notWs _ _ _ h1, h3 f _ (by simp at hfuel h2; omega)]
      simp [cm]; omega

theorem good {cps : List CustomParser} {X : Value Unit → Str → Prop} {Follow : Str → Str → Prop}
    (impl : ImplementsChars u cps X Follow) {cat : Cat} {s : Str} (h : Txt u X cat s) :
    Good u cps Follow cat s :=
  goodOn impl.on h (by cases cat <;> simp [Cat.All])

/-- Completeness: a text of a value parses to this value, leaving what follows it. -/
theorem parse_complete {cps : List CustomParser} {X : Value Unit → Str → Prop} {Follow : Str → Str → Prop}
    (impl : ImplementsChars u cps X Follow) {v : Value Unit} {s rest : Str} (h : Text u X v s) (hf : Follow s rest) :
    parse u cps (s ++ rest) = some (.ok v, rest) := by
  have := good impl h ((s ++ rest).length + 1) rest 0 (by simp; omega) hf
  simp only [parse, Toks.new, this]

/-- Completeness for values with a property. -/
theorem parse_completeOn {cps : List CustomParser} {X : Value Unit → Str → Prop} {Follow : Str → Str → Prop} {P : Value Unit → Prop}
    (impl : ImplementsOn u cps X Follow P) {v : Value Unit} {s rest : Str} (h : Text u X v s) (hP : P v) (hf : Follow s rest) :
    parse u cps (s ++ rest) = some (.ok v, rest) := by
  have := goodOn impl h hP ((s ++ rest).length + 1) rest 0 (by simp; omega) hf
  simp only [parse, Toks.new, this]

end SV
