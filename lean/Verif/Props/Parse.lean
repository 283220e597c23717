import Verif.Proofs.ParseSound
import Verif.Proofs.ParseErr
/-
Properties C09 - C12, C14, C15, C20: the parser. (C13 and C16 are in Props/Format.lean.)
-/
namespace SV

variable {u : Uni}

/-! ### C09 -/

/-- C09: the parser always returns, and what remains is a suffix of the input. -/
theorem C09_terminates_with_suffix (cps : List CustomParser) (s : Str) :
    ∃ r consumed rest, parse u cps s = some (r, rest) ∧ s = consumed ++ rest := by
  obtain ⟨x, t', h, ⟨pre, h1, _⟩, _⟩ := parseValueN_inv (u := u) cps (s.length + 1) (Toks.new s) (by simp [Toks.new])
  exact ⟨x, pre, t'.rest, by simp [parse, h], h1⟩

/-- C09: on success (without custom parsers) at least one character is consumed. -/
theorem C09_consumes (s rest : Str) (v : Value Unit) (h : fromStr u s = some (.ok v, rest)) :
    rest.length < s.length := by
  obtain ⟨x, h1, rfl, _⟩ := fromStr_sound h
  obtain ⟨c, r, rfl, _⟩ := h1.goodHead (u := u) (fun _ _ h => h.elim)
  simp; omega

example : fromStr .ascii "Foo { a: 1 } tail".toList = some
    (.ok (.variant "Foo".toList (.named [("a".toList, .u128 ⟨1, by decide⟩)])), " tail".toList) := by rfl

/-! ### C10 -/

/-- C10: the error location begins at a char boundary of the input, or its end, and its end is not before
its start. With custom parsers this holds as long as it holds of the errors that they return for
the strings they are given. -/
theorem C10_error_location (cps : List CustomParser)
    (hc : ∀ s e c', runCustom cps s = (some (.error e), c') →
      (∃ pre r, s = pre ++ r ∧ e.startLoc = utf8Len pre) ∧ ∀ l, e.endLoc = some l → e.startLoc ≤ l)
    (s rest : Str) (e : ParseError) (h : parse u cps s = some (.error e, rest)) :
    (∃ pre r, s = pre ++ r ∧ e.startLoc = utf8Len pre) ∧ ∀ l, e.endLoc = some l → e.startLoc ≤ l := by
  obtain ⟨x, t', h1, _, h2⟩ := parseValueN_inv (u := u) cps (s.length + 1) (Toks.new s) (by simp [Toks.new])
  simp only [parse, h1] at h
  cases h
  have : CustomErrOk cps := by
    intro s e c' hs
    obtain ⟨⟨p, r, h3, h4⟩, h5⟩ := hc s e c' hs
    exact ⟨⟨p, r, h3, by simp [h4]⟩, h5⟩
  obtain ⟨⟨p, r, h3, h4⟩, h5⟩ := h2 e rfl this
  exact ⟨⟨p, r, h3, by simpa [Toks.new] using h4⟩, h5⟩

/-- C10 for `from_str`. -/
theorem C10_error_location_from_str (s rest : Str) (e : ParseError) (h : fromStr u s = some (.error e, rest)) :
    (∃ pre r, s = pre ++ r ∧ e.startLoc = utf8Len pre) ∧ ∀ l, e.endLoc = some l → e.startLoc ≤ l :=
  C10_error_location [] (by simp [runCustom]) s rest e h

/-- The bad escape in a nested string, after a two byte character. -/
example : ∃ rest, fromStr .ascii "('é', \"\\q\")".toList =
    some (.error ⟨9, some 10, .strExpectedValidEscapeCode⟩, rest) ∧ utf8Len "('é', \"\\".toList = 9 :=
  ⟨_, rfl, rfl⟩

/-! ### C11 -/

/-- C11: what was consumed determines the value: parsed alone it gives the same value and leaves nothing. -/
theorem C11_local (s rest : Str) (v : Value Unit) (h : fromStr u s = some (.ok v, rest)) :
    ∃ x, s = x ++ rest ∧ fromStr u x = some (.ok v, []) := by
  obtain ⟨x, h1, rfl, _⟩ := fromStr_sound h
  exact ⟨x, rfl, fromStr_iff.2 ⟨x, h1, by simp, fun _ => trivial⟩⟩

/-- C11: and the rest can be replaced by any other text that does not continue a final number. -/
theorem C11_replace_rest (s rest rest' : Str) (v : Value Unit) (h : fromStr u s = some (.ok v, rest))
    (h' : NotNumCont rest') : ∃ x, s = x ++ rest ∧ fromStr u (x ++ rest') = some (.ok v, rest') := by
  obtain ⟨x, h1, rfl, _⟩ := fromStr_sound h
  exact ⟨x, rfl, fromStr_iff.2 ⟨x, h1, rfl, fun _ => h'⟩⟩

example : fromStr .ascii "(1, true)xyz".toList =
      some (.ok (.unnamedComposite [.u128 ⟨1, by decide⟩, .bool true]), "xyz".toList) ∧
    fromStr .ascii "(1, true)".toList =
      some (.ok (.unnamedComposite [.u128 ⟨1, by decide⟩, .bool true]), []) := ⟨rfl, rfl⟩

/-! ### C12 -/

theorem digit_head_builtin {pv : Toks → VRes} {c : Char} {r : Str} {o : Nat}
    (hc : isDigit c = true ∨ c = '+' ∨ c = '-') {p : PRes Primitive} (hp : parseNumber ⟨c :: r, o⟩ = p) :
    parseBuiltin u pv ⟨c :: r, o⟩ = match p with
      | (.ok v, t) => some (.ok (Value.primitive v), t)
      | (.error (some e), t) => some (.error e, t)
      | (.error none, _) => parseBuiltin u pv ⟨c :: r, o⟩ := by
  have key : c ≠ 't' ∧ c ≠ 'f' ∧ c ≠ '\'' ∧ c ≠ '"' := by
    rcases hc with hc | rfl | rfl
    · refine ⟨?_, ?_, ?_, ?_⟩ <;> (rintro rfl; revert hc; decide)
    all_goals decide
  obtain ⟨k1, k2, k3, k4⟩ := key
  have hb : parseBool ⟨c :: r, o⟩ = (.error none, ⟨c :: r, o⟩) :=
    parseBool_none (not_prefix_head k1.symm) (not_prefix_head k2.symm)
  have hch : parseChar ⟨c :: r, o⟩ = (.error none, ⟨c :: r, o⟩) :=
    parseChar_none (by intro r' e; simp at e; exact k3 e.1)
  have hs : parseString ⟨c :: r, o⟩ = (.error none, ⟨c :: r, o⟩) :=
    parseString_none (by intro r' e; simp at e; exact k4 e.1)
  match p, hp with
  | (.ok v, t), hp => simp only [parseBuiltin, hb, hch, hs, hp, PRes.map, orAlt]
  | (.error (some e), t), hp => simp only [parseBuiltin, hb, hch, hs, hp, PRes.map, orAlt]
  | (.error none, t), hp => rfl

theorem fromStr_number {c : Char} {r : Str} (hc : isDigit c = true ∨ c = '+' ∨ c = '-') :
    (∀ v t, parseNumber ⟨c :: r, 0⟩ = (.ok v, t) → fromStr u (c :: r) = some (.ok (Value.primitive v), t.rest)) ∧
    (∀ e t, parseNumber ⟨c :: r, 0⟩ = (.error (some e), t) → fromStr u (c :: r) = some (.error e, t.rest)) := by
  constructor
  · intro v t h
    have := digit_head_builtin (u := u) (pv := parseValueN u [] (c :: r).length) hc h
    simp only [fromStr, parse, Toks.new, parseValueN, parseValueStep, runCustom, this]
  · intro e t h
    have := digit_head_builtin (u := u) (pv := parseValueN u [] (c :: r).length) hc h
    simp only [fromStr, parse, Toks.new, parseValueN, parseValueStep, runCustom, this]

/-- C12: an unsigned number (`ds` is a text of decimal digits and underscores with value `n`, see `DecVal`), with
or without `+`, is parsed to `n` exactly if it fits 128 bits. -/
theorem C12_unsigned (sg ds rest : Str) (n : Nat) (hs : sg = [] ∨ sg = ['+']) (h : DecVal ds n)
    (hr : NotNumCont rest) :
    (∀ hn : n < 2 ^ 128, fromStr u (sg ++ ds ++ rest) = some (.ok (.u128 ⟨n, hn⟩), rest)) ∧
    (2 ^ 128 ≤ n → ∃ r', fromStr u (sg ++ ds ++ rest) =
      some (.error ⟨0, some (utf8Len (sg ++ ds)), .numPosOverflow⟩, r')) := by
  constructor
  · intro hn
    refine fromStr_iff.2 ⟨sg ++ ds, ?_, rfl, fun _ => hr⟩
    rcases hs with rfl | rfl
    · exact .builtin (.number (.plain (n := ⟨n, hn⟩) h))
    · exact .builtin (.number (.plus (n := ⟨n, hn⟩) h))
  · intro hn
    have hnone : U128.ofNat? n = none := by simp [U128.ofNat?]; omega
    obtain ⟨c, cs, rfl, hc⟩ := h.head
    have hp : parseNumber ⟨sg ++ c :: cs ++ rest, 0⟩ =
        (.error (some (ParseErrorKind.numPosOverflow.between 0 (utf8Len (sg ++ c :: cs)))), ⟨rest, utf8Len (sg ++ c :: cs)⟩) := by
      obtain ⟨h1, h2⟩ := h.take hr (utf8Len sg)
      have hne := digit_ne_sign hc
      rcases hs with rfl | rfl
      · simp only [List.nil_append, List.cons_append] at h1 ⊢
        simp only [parseNumber, token_ne hne.1, token_ne hne.2, Bool.false_eq_true, if_false]
        simp only [utf8Len_nil] at h1
        rw [h1]
        have := utf8Size_pos c
        simp only [h2, hnone]
        rw [if_neg (by simp; omega)]
        simp
      · have hp1 : ('+' : Char).utf8Size = 1 := rfl
        simp only [List.cons_append, List.nil_append] at h1 ⊢
        simp only [utf8Len_cons, utf8Len_nil, hp1] at h1
        simp only [parseNumber, token_eq, if_true, hp1]
        rw [show 0 + 1 = 1 + 0 from rfl, h1]
        simp only [h2, hnone]
        rw [if_neg (by simp)]
        simp [hp1]
    rcases hs with rfl | rfl
    · exact ⟨_, (fromStr_number (.inl hc)).2 _ _ hp⟩
    · exact ⟨_, (fromStr_number (.inr (.inl rfl))).2 _ _ hp⟩

/-- C12: a negative number is parsed to exactly that if it fits. -/
theorem C12_negative (ds rest : Str) (n : Nat) (h : DecVal ds n) (hr : NotNumCont rest) :
    (∀ hn : n ≤ 2 ^ 127, fromStr u ('-' :: ds ++ rest) =
      some (.ok (.i128 ⟨-(n : Int), by omega, by omega⟩), rest)) ∧
    (2 ^ 127 < n → ∃ r', fromStr u ('-' :: ds ++ rest) =
      some (.error ⟨0, some (utf8Len ('-' :: ds)), .numNegOverflow⟩, r')) := by
  constructor
  · intro hn
    refine fromStr_iff.2 ⟨'-' :: ds, ?_, rfl, fun _ => hr⟩
    exact .builtin (.number (.minus (n := ⟨-(n : Int), by omega, by omega⟩) h rfl))
  · intro hn
    have hnone : I128.ofInt? (-(n : Int)) = none := by
      unfold I128.ofInt?; rw [dif_neg]; omega
    have hp1 : ('-' : Char).utf8Size = 1 := rfl
    have hp : parseNumber ⟨'-' :: ds ++ rest, 0⟩ =
        (.error (some (ParseErrorKind.numNegOverflow.between 0 (utf8Len ('-' :: ds)))), ⟨rest, utf8Len ('-' :: ds)⟩) := by
      obtain ⟨h1, h2⟩ := h.take hr 1
      simp only [List.cons_append, parseNumber, token_ne (show ('-' : Char) ≠ '+' by decide), token_eq, hp1,
        Bool.false_eq_true, if_false]
      rw [show 0 + 1 = 1 from rfl, h1]
      simp only [h2, hnone]
      rw [if_neg (by simp)]
      simp [hp1]
    exact ⟨_, (fromStr_number (.inr (.inr rfl))).2 _ _ hp⟩

/-- C12: a sign must be followed by a digit. -/
theorem C12_sign_only (sg : Char) (rest : Str) (hs : sg = '+' ∨ sg = '-')
    (hr : ∀ c r, rest = c :: r → isDigit c = false) :
    ∃ r', fromStr u (sg :: rest) = some (.error ⟨1, some 2, .numExpectedDigit⟩, r') := by
  rcases parseNumber_cases ⟨sg :: rest, 0⟩ with ⟨h1, _⟩ | ⟨sg', r', h1, h2, _, h3⟩ | ⟨sg', ds, r', n, h1, h2, h3, h4, h5⟩ |
      ⟨ds, r', n, h2, h3, h4, h5⟩
  · have := h1 sg rest rfl; rcases hs with rfl | rfl <;> simp at this
  · exact ⟨_, (fromStr_number (.inr hs)).2 _ _ h3⟩
  · exfalso
    obtain ⟨c, cs, rfl, hc⟩ := h4.head
    rcases h1 with rfl | rfl
    · simp at h2
      obtain ⟨rfl, _⟩ := h2
      rcases hs with rfl | rfl <;> (revert hc; decide)
    · simp at h2
      have := hr _ _ h2.2
      rw [hc] at this; cases this
  · exfalso
    obtain ⟨c, cs, rfl, hc⟩ := h4.head
    simp at h2
    have := hr _ _ h2.2
    rw [hc] at this; cases this

example : DecVal "1_000".toList 1000 :=
  .digit (.digit (.digit (.underscore (.single (c := '1') rfl)) (c := '0') rfl) (c := '0') rfl) (c := '0') rfl

example : fromStr .ascii "340282366920938463463374607431768211455,".toList =
      some (.ok (.u128 ⟨2 ^ 128 - 1, by decide⟩), [',']) ∧
    fromStr .ascii "340282366920938463463374607431768211456,".toList =
      some (.error ⟨0, some 39, .numPosOverflow⟩, [',']) := ⟨rfl, rfl⟩

/-! ### C14 -/

theorem nextN_rest : ∀ (k : Nat) (t : Toks), (Toks.nextN k t).rest = t.rest.drop k := by
  intro k
  induction k with
  | zero => intro t; rfl
  | succ k ih =>
    intro t
    obtain ⟨r, o⟩ := t
    cases r with
    | nil => simp [Toks.nextN, ih, Toks.next]
    | cons c r => simp [Toks.nextN, ih, Toks.next]

/-- C14: a custom parser that is reached (all before it decline and leave the input alone) and answers with
success or failure decides the result, before any built-in syntax. When it fails nothing is consumed; when it succeeds what remains is
counted from what it left (C15). -/
theorem C14_first_answer_wins (before after : List CustomParser) (p : CustomParser) (s s' : Str)
    (r : Except ParseError (Value Unit)) (hb : ∀ q ∈ before, q s = (none, s)) (hp : p s = (some r, s')) :
    parse u (before ++ p :: after) s =
      some (r, match r with | .ok _ => s.drop (utf8Len s - utf8Len s') | .error _ => s) := by
  have hrun : runCustom (before ++ p :: after) s = (some r, s') := by
    induction before with
    | nil => simp [runCustom, hp]
    | cons q qs ih =>
      simp only [List.cons_append, runCustom, hb q (by simp)]
      exact ih (fun q hq => hb q (by simp [hq]))
  cases r with
  | ok v => simp only [parse, Toks.new, parseValueN, parseValueStep, hrun, nextN_rest]
  | error e =>
    simp only [parse, Toks.new, parseValueN, parseValueStep, hrun]
    simp

theorem parseValueN_congr {cps cps' : List CustomParser} (h : ∀ s, runCustom cps s = runCustom cps' s) (n : Nat) :
    parseValueN u cps n = parseValueN u cps' n := by
  induction n with
  | zero => rfl
  | succ n ih => funext t; simp only [parseValueN, parseValueStep, ih, h]

/-- C14: a parser that always declines without touching its input has no effect, wherever it is
in the list of parsers. -/
theorem C14_declining_is_noop (before after : List CustomParser) (p : CustomParser) (hp : ∀ s, p s = (none, s))
    (s : Str) : parse u (before ++ p :: after) s = parse u (before ++ after) s := by
  have : ∀ (before : List CustomParser) (s : Str),
      runCustom (before ++ p :: after) s = runCustom (before ++ after) s := by
    intro before
    induction before with
    | nil => intro s; simp [runCustom, hp]
    | cons q qs ih =>
      intro s
      simp only [List.cons_append, runCustom]
      cases q s with
      | mk a b => cases a with
        | none => exact ih _
        | some r => rfl
  simp only [parse, parseValueN_congr (this before)]

/-- C14: at each position where a value is expected, however deeply nested, the custom notations take part: if
custom parsers implement the notations `X` (and decline built-in texts), then every text of the language extended by `X`
parses to its value. -/
theorem C14_custom_notations (cps : List CustomParser) (X : Value Unit → Str → Prop) (Follow : Str → Str → Prop)
    (impl : Implements u cps X Follow) (v : Value Unit) (s rest : Str) (h : Text u X v s)
    (hf : Follow s rest) : parse u cps (s ++ rest) = some (.ok v, rest) :=
  parse_complete impl.chars h hf

/-- C14: the error of a custom parser at any nested position where a value is expected is the error of the
whole parse, with both locations shifted by the byte length of what comes before. The custom parsers are
required to decline at the enclosing positions. -/
theorem C14_error_shift (cps : List CustomParser) (X : Value Unit → Str → Prop) (Follow : Str → Str → Prop)
    (impl : Implements u cps X Follow) (p s c' : Str) (e : ParseError)
    (hp : OpenTxt u X (fun q => ∃ c', runCustom cps (q ++ s) = (none, c')) .val p)
    (hs : ∃ c r, s = c :: r ∧ u.ws c = false ∧ c ≠ ')' ∧ c ≠ '}')
    (he : runCustom cps s = (some (.error e), c')) :
    ∃ rest, parse u cps (p ++ s) =
      some (.error ⟨utf8Len p + e.startLoc, e.endLoc.map (utf8Len p + ·), e.err⟩, rest) := by
  have := open_err impl.chars hs (e := fun o => ⟨o + e.startLoc, e.endLoc.map (o + ·), e.err⟩) (by
    intro n o hn
    obtain ⟨m, rfl⟩ : ∃ m, n = m + 1 := ⟨n - 1, by omega⟩
    simp only [parseValueN, parseValueStep, he]
    exact ⟨_, rfl⟩) hp
  obtain ⟨t', h⟩ := this ((p ++ s).length + 1) 0 (by omega)
  refine ⟨t'.rest, ?_⟩
  simp only [parse, Toks.new, h]
  simp

/-- A custom parser for the notation `$` of the value `true`, which rejects `$$`. -/
def dollar : CustomParser
  | '$' :: '$' :: r => (some (.error ⟨1, some 2, .custom "two".toList⟩), '$' :: '$' :: r)
  | '$' :: r => (some (.ok (.bool true)), r)
  | s => (none, s)

/-- Nested: a success and a shifted error. -/
example : parse .ascii [dollar] "(1, Foo { a: $ })!".toList = some (.ok (.unnamedComposite
      [.u128 ⟨1, by decide⟩, .variant "Foo".toList (.named [("a".toList, .bool true)])]), ['!']) ∧
    ∃ r, parse .ascii [dollar] "(1, $$)".toList = some (.error ⟨5, some 6, .custom "two".toList⟩, r) :=
  ⟨rfl, _, rfl⟩

/-- `dollar` implements the notation `$` for `true`. -/
theorem dollar_implements : Implements Uni.ascii [dollar] (fun v s => v = .bool true ∧ s = ['$'])
    (fun s rest => PlainFollow s rest ∧ ∀ r, rest ≠ '$' :: r) where
  sep := by
    intro s c r hc
    refine ⟨Implements.plain.sep s c r hc, ?_⟩
    intro r' e
    simp at e
    rw [e.1] at hc
    revert hc; simp [Delim, Uni.ascii, isAsciiWs]
  num := fun p s rest h hf => (Implements.plain (u := .ascii)).num p s rest h hf.1
  accept := by
    rintro v s rest ⟨rfl, rfl⟩ hf
    refine ⟨?_, by decide⟩
    simp only [runCustom, List.cons_append, List.nil_append]
    cases rest with
    | nil => rfl
    | cons c r =>
      have : c ≠ '$' := by rintro rfl; exact hf.2 r rfl
      have : dollar ('$' :: c :: r) = (some (.ok (.bool true)), c :: r) := by
        unfold dollar; split <;> simp_all
      rw [this]
  decline := by
    intro v s rest h _
    have : ∃ c r, s = c :: r ∧ c ≠ '$' := by
      cases h with
      | true_ => exact ⟨_, _, rfl, by decide⟩
      | false_ => exact ⟨_, _, rfl, by decide⟩
      | char h => cases h <;> exact ⟨_, _, rfl, by decide⟩
      | string h => cases h; exact ⟨_, _, rfl, by decide⟩
      | number h =>
        cases h with
        | plain h => obtain ⟨c, r, rfl, hc⟩ := h.head; exact ⟨c, r, rfl, by rintro rfl; revert hc; decide⟩
        | plus h => exact ⟨_, _, rfl, by decide⟩
        | minus h => exact ⟨_, _, rfl, by decide⟩
      | bits => exact ⟨_, _, rfl, by decide⟩
      | composite h => cases h <;> exact ⟨_, _, rfl, by decide⟩
      | variant hn _ _ =>
        cases hn with
        | ident h _ _ => cases h with
          | @mk c _ hc _ => exact ⟨c, _, rfl, by rintro rfl; revert hc; decide⟩
        | quoted h => exact ⟨_, _, rfl, by decide⟩
    obtain ⟨c, r, rfl, hc⟩ := this
    refine ⟨c :: r ++ rest, ?_⟩
    simp only [runCustom, List.cons_append]
    have : dollar (c :: (r ++ rest)) = (none, c :: (r ++ rest)) := by
      unfold dollar; split <;> simp_all
    rw [this]
  head := by
    rintro v s ⟨_, rfl⟩
    exact ⟨_, _, rfl, by decide, by decide, by decide⟩

/-- The position before `$$` in `(1, $$)` is one where a value is expected. -/
example : OpenTxt .ascii (fun v s => v = .bool true ∧ s = ['$'])
    (fun q => ∃ c', runCustom [dollar] (q ++ ['$', '$', ')']) = (none, c')) .val "(1, ".toList :=
  .composite ⟨_, rfl⟩ (.unnamedLater (w := []) (w3 := []) (w4 := [' ']) (q := []) (x := ['1'])
    (vs := [.u128 ⟨1, by decide⟩]) (by simp [Ws])
    (.val1 (.builtin (.number (.plain (n := ⟨1, by decide⟩) (.single (c := '1') rfl))))) (by simp [Ws])
    (by simp [Ws]; decide) .here)

/-! ### C15 -/

/-- C15: if the custom parsers succeed on `s`, leaving `left`, the parser goes on after the first `n` *characters* of `s`
(or at its end, if it is shorter), `n` being the number of *bytes* that `left` is shorter than `s`: from_string.rs:239 counts bytes, and `t.next()` in
line 240 advances by chars. -/
theorem C15_resumes (cps : List CustomParser) (s left : Str) (v : Value Unit)
    (h : runCustom cps s = (some (.ok v), left)) :
    parse u cps s = some (.ok v, s.drop (utf8Len s - utf8Len left)) := by
  simp only [parse, Toks.new, parseValueN, parseValueStep, h, nextN_rest]

theorem utf8Len_ge (s : Str) : s.length ≤ utf8Len s := by
  induction s with
  | nil => simp
  | cons c s ih => have := c.utf8Size_pos; simp; omega

theorem ascii_of_utf8Len {s : Str} (h : utf8Len s = s.length) : ∀ c ∈ s, c.utf8Size = 1 := by
  induction s with
  | nil => simp
  | cons c s ih =>
    have h1 := c.utf8Size_pos
    have h2 := utf8Len_ge s
    simp at h
    intro d hd
    rcases List.mem_cons.1 hd with rfl | hd
    · omega
    · exact ih (by omega) d hd

/-- C15: when a custom parser consumes `x` and leaves `rest`, then what remains after parsing is that `rest` exactly if `x` is
ASCII text, or nothing is left. -/
theorem C15_exact_iff_ascii (p : CustomParser) (x rest : Str) (v : Value Unit)
    (hp : p (x ++ rest) = (some (.ok v), rest)) :
    parse u [p] (x ++ rest) = some (.ok v, rest) ↔ (∀ c ∈ x, c.utf8Size = 1) ∨ rest = [] := by
  rw [C15_resumes [p] (x ++ rest) rest v (by simp only [runCustom, hp])]
  rw [utf8Len_append, Nat.add_sub_cancel]
  have hge := utf8Len_ge x
  constructor
  · intro h
    have h : (x ++ rest).drop (utf8Len x) = rest := by simpa using h
    have h : (x ++ rest).length - utf8Len x = rest.length := by simpa using congrArg List.length h
    rw [List.length_append] at h
    by_cases hr : rest = []
    · exact .inr hr
    · have : 0 < rest.length := List.length_pos_iff.2 hr
      exact .inl (ascii_of_utf8Len (by omega))
  · rintro (h | rfl)
    · rw [utf8Len_ascii h]; simp
    · simpa using hge

/-- C15: and so it is at each nested position. If a text of `X` is what the parser moves over when a custom parser succeeds
(as many characters as it consumed bytes), then every text of the language extended by `X` parses to its value, and what is after
the text remains. For notations in ASCII this is `C14_custom_notations`. -/
theorem C15_nested (cps : List CustomParser) (X : Value Unit → Str → Prop) (Follow : Str → Str → Prop)
    (impl : ImplementsChars u cps X Follow) (v : Value Unit) (s rest : Str) (h : Text u X v s)
    (hf : Follow s rest) : parse u cps (s ++ rest) = some (.ok v, rest) :=
  parse_complete impl h hf

/-- A custom parser for the notation `é` (two bytes in UTF-8) of the value `true`. -/
def eacute : CustomParser
  | 'é' :: r => (some (.ok (.bool true)), r)
  | s => (none, s)

/-- `é` is consumed by the custom parser, leaving `ab`, but the parser goes on with `b`. -/
theorem C15_non_ascii_counterexample :
    eacute "éab".toList = (some (.ok (.bool true)), "ab".toList) ∧
    parse u [eacute] "éab".toList = some (.ok (.bool true), "b".toList) := ⟨rfl, rfl⟩

/-- And so `(é)` does not parse: the closing bracket is lost. -/
theorem C15_non_ascii_counterexample_nested :
    ∃ r, parse Uni.ascii [eacute] "(é)".toList =
      some (.error ⟨4, some 5, .expectedCloserToMatch ')' 0⟩, r) := ⟨_, rfl⟩

example : dollar ("$".toList ++ "ab".toList) = (some (.ok (.bool true)), "ab".toList) ∧
    (∀ c ∈ "$".toList, c.utf8Size = 1) := ⟨rfl, by decide⟩

/-- In effect `eacute` is a parser for `é` with any one character after it. -/
theorem eacute_implements : ImplementsChars Uni.ascii [eacute] (fun v s => v = .bool true ∧ ∃ c, s = ['é', c]) PlainFollow where
  sep := Implements.plain.sep
  num := Implements.plain.num (u := .ascii)
  accept := by
    rintro v s rest ⟨rfl, c, rfl⟩ hf
    refine ⟨c :: rest, rfl, ?_⟩
    have : utf8Len (['é', c] ++ rest) - utf8Len (c :: rest) = 2 := by
      have : ('é' : Char).utf8Size = 2 := rfl
      simp [this]
    rw [this]; rfl
  decline := by
    intro v s rest h _
    have : ∃ c r, s = c :: r ∧ c ≠ 'é' := by
      cases h with
      | true_ => exact ⟨_, _, rfl, by decide⟩
      | false_ => exact ⟨_, _, rfl, by decide⟩
      | char h => cases h <;> exact ⟨_, _, rfl, by decide⟩
      | string h => cases h; exact ⟨_, _, rfl, by decide⟩
      | number h =>
        cases h with
        | plain h => obtain ⟨c, r, rfl, hc⟩ := h.head; exact ⟨c, r, rfl, by rintro rfl; revert hc; decide⟩
        | plus h => exact ⟨_, _, rfl, by decide⟩
        | minus h => exact ⟨_, _, rfl, by decide⟩
      | bits => exact ⟨_, _, rfl, by decide⟩
      | composite h => cases h <;> exact ⟨_, _, rfl, by decide⟩
      | variant hn _ _ =>
        cases hn with
        | ident h _ _ => cases h with
          | @mk c _ hc _ => exact ⟨c, _, rfl, by rintro rfl; revert hc; decide⟩
        | quoted h => exact ⟨_, _, rfl, by decide⟩
    obtain ⟨c, r, rfl, hc⟩ := this
    refine ⟨c :: r ++ rest, ?_⟩
    simp only [runCustom, List.cons_append]
    have : eacute (c :: (r ++ rest)) = (none, c :: (r ++ rest)) := by
      unfold eacute; split <;> simp_all
    rw [this]
  head := by
    rintro v s ⟨_, c, rfl⟩
    exact ⟨_, _, rfl, by decide, by decide, by decide⟩

example : parse .ascii [eacute] "(1, Foo { a: é? })!".toList = some (.ok (.unnamedComposite
      [.u128 ⟨1, by decide⟩, .variant "Foo".toList (.named [("a".toList, .bool true)])]), ['!']) := rfl

/-! ### C20 -/

/-- C20: any text of a value, with whatever whitespace between its tokens (see `Txt`), parses to that
value. -/
theorem C20_whitespace_insignificant (v : Value Unit) (s rest : Str) (h : Text u NoCustom v s)
    (hr : PlainFollow s rest) : fromStr u (s ++ rest) = some (.ok v, rest) :=
  fromStr_iff.2 ⟨s, h, rfl, hr⟩

/-- C20: and conversely whatever parses is a text of that value, with a rest that does not continue it. -/
theorem C20_parser_accepts_exactly_the_grammar (s rest : Str) (v : Value Unit) :
    fromStr u s = some (.ok v, rest) ↔ ∃ x, Text u NoCustom v x ∧ s = x ++ rest ∧ PlainFollow x rest :=
  fromStr_iff

/-- A text has one reading. -/
theorem C20_unambiguous (v w : Value Unit) (s : Str) (h : Text u NoCustom v s) (h' : Text u NoCustom w s) : v = w := by
  have h1 := C20_whitespace_insignificant v s [] h (fun _ => trivial)
  rw [C20_whitespace_insignificant w s [] h' (fun _ => trivial)] at h1
  cases h1; rfl

/-- `Foo\n( 1,true )` is a text of `Foo(1, true)`. -/
example : Text .ascii NoCustom (.variant "Foo".toList (.unnamed [.u128 ⟨1, by decide⟩, .bool true]))
    "Foo\n( 1,true )".toList := by
  have h := Txt.variant (u := .ascii) (X := NoCustom) (n := "Foo".toList) (w := ['\n'])
    (.ident (.mk (by decide) (by decide)) (by decide) (by decide)) (by simp [Ws]; decide)
    (.unnamed (w1 := [' ']) (w2 := [' ']) (by simp [Ws]; decide) (by simp [Ws]; decide)
      (.valCons (w3 := []) (w4 := []) (.builtin (.number (.plain (n := ⟨1, by decide⟩) (.single (c := '1') rfl))))
        (by simp [Ws]) (by simp [Ws]) (.val1 (.builtin .true_))))
  exact .builtin h

end SV
