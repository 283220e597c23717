import Verif.Proofs.FormatCtx
import Verif.Proofs.FormatLayout
import Verif.Proofs.FormatGap
import Verif.Proofs.ParseSound
import Verif.Proofs.ParseErr
/-
Properties C05 - C08, C13, C16 - C19: the formatter, and its round trip with the parser.
-/
namespace SV

variable {T W : Type} {u : Uni}

/-! ### C05, C06 -/

theorem builder_text (b : Builder T Str) (hw : b.wr = stringWriter) (hf : b.customFormatters = [])
    (hc : b.printContext = none) (hi : Ws u b.indentBy) (hl : Ws u b.leadingIndent) (v : Value T) (hp : Printable u v) :
    ∃ s, b.toString u v = some s ∧ Text u NoCustom v.removeContext s := by
  have hok := (plain_ok (u := u) b.indentBy b.leadingIndent v b.style).2 hp.no256
  refine ⟨(trValue u (.plain b.indentBy b.leadingIndent) v b.style).txt, ?_, ?_⟩
  · simp only [Builder.toString, write_eq (represents_plain b hf hc), hw, runTr_string, hok, List.nil_append, Tr.txt]
  · exact value_text hi hl rfl (by intro v t h; cases h) v hp b.style hok

/-- C06: what any builder without custom formatters and contexts writes for a printable value, followed by any
text that does not continue a final number, parses back to the value (without contexts) and leaves that text.
`b.style` is any of compact, normal, and pretty at any initial indentation. -/
theorem C06_all_styles_round_trip (b : Builder T Str) (hw : b.wr = stringWriter) (hf : b.customFormatters = [])
    (hc : b.printContext = none) (hi : Ws u b.indentBy) (hl : Ws u b.leadingIndent) (v : Value T) (hp : Printable u v) :
    ∃ s, b.toString u v = some s ∧
      ∀ rest, PlainFollow s rest → fromStr u (s ++ rest) = some (.ok v.removeContext, rest) := by
  obtain ⟨s, h1, h2⟩ := builder_text b hw hf hc hi hl v hp
  exact ⟨s, h1, fun rest hr => fromStr_iff.2 ⟨s, h2, rfl, hr⟩⟩

theorem toString_eq (alt : Bool) (v : Value T) :
    v.toString u alt = (defaultBuilder stringWriter alt).toString u v := by
  simp only [Value.toString, Builder.toString, display_eq]

theorem default_wr (alt : Bool) : (defaultBuilder (T := T) stringWriter alt).wr = stringWriter := by cases alt <;> rfl
theorem default_cf (alt : Bool) : (defaultBuilder (T := T) stringWriter alt).customFormatters = [] := by cases alt <;> rfl
theorem default_pc (alt : Bool) : (defaultBuilder (T := T) stringWriter alt).printContext = none := by cases alt <;> rfl
theorem default_ind (alt : Bool) : (defaultBuilder (T := T) stringWriter alt).indentBy = [' ', ' '] := by
  cases alt <;> rfl
theorem default_lead (alt : Bool) : (defaultBuilder (T := T) stringWriter alt).leadingIndent = [] := by
  cases alt <;> rfl

/-- C05: `value.to_string()` (and `format!("{value:#}")`, for `alt = true`) of a printable value parses back. -/
theorem C05_display_round_trip (alt : Bool) (v : Value T) (hp : Printable u v) :
    ∃ s, v.toString u alt = some s ∧
      ∀ rest, PlainFollow s rest → fromStr u (s ++ rest) = some (.ok v.removeContext, rest) := by
  rw [toString_eq]
  refine C06_all_styles_round_trip _ (default_wr alt) (default_cf alt) (default_pc alt) ?_ ?_ v hp
  · rw [default_ind]; intro c hc; simp at hc; subst hc; exact ws_space
  · rw [default_lead]; exact ws_nil

/-- A value to use in examples: `v"true" ({ a: -7, "b c": "\n" }, <101>)`. -/
def exPrintable : Value Nat :=
  .mk (.variant (.mk "x y".toList (.unnamed [
    .mk (.composite (.named [("a".toList, .mk (.primitive (.i128 ⟨-7, by decide, by decide⟩)) 1),
      ("b c".toList, .mk (.primitive (.string "\n\"é".toList)) 2)])) 3,
    .mk (.bitSequence [true, false, true]) 4]))) 5

theorem exPrintable_printable : Printable Uni.ascii exPrintable := by
  refine .vunnamed ?_ ?_
  · intro h; rw [← isIdent_iff] at h; revert h; decide
  · intro v hv
    simp at hv
    rcases hv with rfl | rfl
    · refine .named ?_
      intro p hp
      simp at hp
      rcases hp with rfl | rfl
      · exact .prim (by simp [PrimOk])
      · exact .prim trivial
    · exact .bits

example : exPrintable.toString .ascii false =
    some "v\"x y\" ({ a: -7, \"b c\": \"\\n\\\"é\" }, <101>)".toList := by decide +kernel

/-! ### C07 -/

/-- C07: with a writer that never fails, a builder without custom formatters and contexts succeeds exactly if the
value contains no 256 bit primitive. -/
theorem C07_fails_only_for_256 (b : Builder T W) (hf : b.customFormatters = []) (hc : b.printContext = none)
    (hw : ∀ s w, (b.wr s w).1 = true) (v : Value T) (w : W) :
    (b.write u v w).1 = true ↔ ¬ Has256 v := by
  rw [write_eq (represents_plain b hf hc), ← plain_ok (u := u) b.indentBy b.leadingIndent v b.style]
  have : ∀ l w, (runWrites b.wr l w).1 = true := by
    intro l
    induction l with
    | nil => intro w; rfl
    | cons s l ih =>
      intro w
      have := hw s w
      simp only [runWrites]
      cases h : b.wr s w with
      | mk ok w' => rw [h] at this; simp only at this; subst this; exact ih w'
  unfold runTr
  have h1 := this (trValue u (.plain b.indentBy b.leadingIndent) v b.style).1 w
  cases h : runWrites b.wr (trValue u (.plain b.indentBy b.leadingIndent) v b.style).1 w with
  | mk ok w' => rw [h] at h1; simp only at h1; subst h1; rfl

/-- C07 for `Display`: `to_string` panics exactly for values with a 256 bit primitive. -/
theorem C07_display (alt : Bool) (v : Value T) : (∃ s, v.toString u alt = some s) ↔ ¬ Has256 v := by
  have := C07_fails_only_for_256 (u := u) (defaultBuilder stringWriter alt) (default_cf alt) (default_pc alt)
    (by intro s w; rw [default_wr]; rfl) v []
  rw [← this, toString_eq]
  unfold Builder.toString
  cases (defaultBuilder stringWriter alt).write u v [] with
  | mk ok w => cases ok <;> simp

/-- C07 with custom formatters and contexts: it fails exactly if there is a 256 bit number which is not part of anything that a custom formatter writes. -/
theorem C07_with_formatters (o : FmtOpts T) (v : Value T) : (∃ s, (o.builder stringWriter).toString u v = some s) ↔ ¬ Exposed256 o v := by
  have := exposed_iff (u := u) o v 0
  rw [← this, Style.deep_zero]
  simp only [Builder.toString, o.write_eq, runTr_string, List.nil_append]
  cases (trValue u o.cfg v o.style).2 <;> simp

example : Has256 (T := Unit) (.mk (.composite (.unnamed [.mk (.primitive (.u256 ⟨List.replicate 32 0, rfl⟩)) ()])) ()) ∧
    ¬ Has256 exPrintable :=
  ⟨.unnamed (v := .mk (.primitive (.u256 ⟨List.replicate 32 0, rfl⟩)) ()) (by simp) .u256, exPrintable_printable.no256⟩

/-! ### C08 -/

/-- C08: if two printable values are written to the same text, by any two builders without custom formatters and
contexts, then they are equal up to contexts. -/
theorem C08_injective (b : Builder T Str) (hw : b.wr = stringWriter) (hf : b.customFormatters = [])
    (hc : b.printContext = none) (hi : Ws u b.indentBy) (hl : Ws u b.leadingIndent)
    {T' : Type} (b' : Builder T' Str) (hw' : b'.wr = stringWriter) (hf' : b'.customFormatters = [])
    (hc' : b'.printContext = none) (hi' : Ws u b'.indentBy) (hl' : Ws u b'.leadingIndent)
    (v : Value T) (v' : Value T') (hp : Printable u v) (hp' : Printable u v')
    (h : b.toString u v = b'.toString u v') : v.removeContext = v'.removeContext := by
  obtain ⟨s, h1, h2⟩ := C06_all_styles_round_trip b hw hf hc hi hl v hp
  obtain ⟨s', h1', h2'⟩ := C06_all_styles_round_trip b' hw' hf' hc' hi' hl' v' hp'
  rw [h1, h1'] at h
  cases h
  have := (h2 [] (fun _ => trivial)).symm.trans (h2' [] (fun _ => trivial))
  simpa using this

/-- The hypothesis on the values is needed: a non-negative `I128` prints like a `U128`. -/
example : (Value.i128 ⟨7, by decide, by decide⟩).toString .ascii false = (Value.u128 ⟨7, by decide⟩).toString .ascii false := by
  decide +kernel

/-! ### C13 -/

/-- C13: every string prints to a literal in double quotes that parses back to it, whatever follows. -/
theorem C13_string_round_trip (alt : Bool) (s : Str) (c : T) :
    ∃ t, (Value.mk (.primitive (.string s)) c).toString u alt = some ('"' :: t ++ ['"']) ∧
      ∀ rest, fromStr u ('"' :: t ++ ['"'] ++ rest) = some (.ok (.string s), rest) := by
  refine ⟨(trChars s).txt, ?_, fun rest => ?_⟩
  · rw [toString_eq]
    simp only [Builder.toString, write_eq (represents_plain _ (default_cf alt) (default_pc alt)), default_wr, runTr_string]
    simp only [trValue, trContext, TrCfg.plain, seq_ok_left, trValueDef, trPrimitive, ok_string]
    have : (trString s).1.flatten = (trString s).txt := rfl
    rw [this]
    simp [trString, txts]
  · refine fromStr_iff.2 ⟨_, .builtin (.string (.mk (chars_body s))), rfl, ?_⟩
    intro ⟨t, c, h, hd⟩
    exfalso
    obtain ⟨-, h⟩ := List.append_inj' h rfl
    simp at h; subst h
    revert hd; decide

/-- C13: every char prints to a literal in single quotes that parses back to it, whatever follows. -/
theorem C13_char_round_trip (alt : Bool) (x : Char) (c : T) :
    ∃ t, (Value.mk (.primitive (.char x)) c).toString u alt = some ('\'' :: t ++ ['\'']) ∧
      ∀ rest, fromStr u ('\'' :: t ++ ['\''] ++ rest) = some (.ok (.char x), rest) := by
  refine ⟨(trEscaped x).txt, ?_, fun rest => ?_⟩
  · rw [toString_eq]
    simp only [Builder.toString, write_eq (represents_plain _ (default_cf alt) (default_pc alt)), default_wr, runTr_string]
    simp only [trValue, trContext, TrCfg.plain, seq_ok_left, trValueDef, trPrimitive, ok_char]
    have : (trChar x).1.flatten = (trChar x).txt := rfl
    rw [this]
    simp [trChar, txts]
  · have h := char_lit x
    have e : (trChar x).txt = '\'' :: (trEscaped x).txt ++ ['\''] := by simp [trChar, txts]
    rw [e] at h
    refine fromStr_iff.2 ⟨_, .builtin (.char h), rfl, ?_⟩
    intro ⟨t, c, h, hd⟩
    exfalso
    obtain ⟨-, h⟩ := List.append_inj' h rfl
    simp at h; subst h
    revert hd; decide

/-- Errors of the string parser are errors of the value parser, at any nested position. -/
theorem literal_err {q : Char} {s : Str} {e : Nat → ParseError} {p : Str}
    (hq : q = '"' ∨ q = '\'')
    (he : ∀ o, if q = '"' then ∃ t', parseString ⟨q :: s, o⟩ = (.error (some (e o)), t')
      else ∃ t', parseChar ⟨q :: s, o⟩ = (.error (some (e o)), t'))
    (hp : OpenTxt u NoCustom (fun _ => True) .val p) :
    ∃ r, fromStr u (p ++ q :: s) = some (.error (e (utf8Len p)), r) := by
  have hp' : OpenTxt u NoCustom (fun x => ∃ c', runCustom [] (x ++ q :: s) = (none, c')) .val p := by
    have : (fun x : Str => ∃ c', runCustom [] (x ++ q :: s) = (none, c')) = fun _ => True := by
      funext x; simp [runCustom]
    rw [this]; exact hp
  have hg : GoodHead u (q :: s) := by
    rcases hq with rfl | rfl <;> exact goodHead_ascii (by decide) (by decide) (by decide) (by decide)
  have := open_err (Implements.plain (u := u)).chars hg (e := e) (by
    intro n o hn
    obtain ⟨m, rfl⟩ : ∃ m, n = m + 1 := ⟨n - 1, by omega⟩
    have h := he o
    rcases hq with rfl | rfl
    · obtain ⟨t', h⟩ := h
      have hb : parseBool ⟨'"' :: s, o⟩ = (.error none, ⟨'"' :: s, o⟩) :=
        parseBool_none (by simp) (by simp)
      have hch : parseChar ⟨'"' :: s, o⟩ = (.error none, ⟨'"' :: s, o⟩) :=
        parseChar_none (by intro r' e; simp at e)
      exact ⟨t', by simp only [parseValueN, parseValueStep, runCustom, parseBuiltin, hb, hch, h, PRes.map, orAlt]⟩
    · simp only [Char.reduceEq, if_false] at h
      obtain ⟨t', h⟩ := h
      have hb : parseBool ⟨'\'' :: s, o⟩ = (.error none, ⟨'\'' :: s, o⟩) :=
        parseBool_none (by simp) (by simp)
      exact ⟨t', by simp only [parseValueN, parseValueStep, runCustom, parseBuiltin, hb, h, PRes.map, orAlt]⟩) hp'
  obtain ⟨t', h⟩ := this ((p ++ q :: s).length + 1) 0 (by omega)
  refine ⟨t'.rest, ?_⟩
  simp only [fromStr, parse, Toks.new, h]
  simp

/-- The string loop after a good beginning. -/
theorem strLoop_body {s t : Str} (h : StrBody s t) (start : Nat) :
    ∀ (out : Str) (rest : Str) (o : Nat), strLoop start out false (t ++ rest) o =
      strLoop start (out ++ s) false rest (o + utf8Len t) := by
  induction h with
  | nil => intro out rest o; simp
  | @plain c s t h1 h2 h ih =>
    intro out rest o
    rw [List.cons_append, strLoop]
    simp [h1, h2, ih, Nat.add_assoc]
  | @esc e d s t he h ih =>
    intro out rest o
    rw [List.cons_append, List.cons_append, strLoop]
    simp only [true_and, if_true]
    rw [strLoop]
    simp [fromEscapeCode_iff.2 he, ih, Nat.add_assoc]

/-- C13: an unknown escape in a string literal, at any position where a value is expected, is an error located
at the escape code. -/
theorem C13_string_bad_escape (p s t rest : Str) (e : Char) (hp : OpenTxt u NoCustom (fun _ => True) .val p)
    (hb : StrBody s t) (he : ∀ d, ¬ Escape e d) :
    ∃ r, fromStr u (p ++ '"' :: (t ++ '\\' :: e :: rest)) =
      some (.error ⟨utf8Len (p ++ '"' :: t ++ ['\\']), some (utf8Len (p ++ '"' :: t ++ ['\\']) + 1),
        .strExpectedValidEscapeCode⟩, r) := by
  have hn : fromEscapeCode e = none := by
    cases h : fromEscapeCode e with
    | none => rfl
    | some d => exact absurd (fromEscapeCode_iff.1 h) (he d)
  have := literal_err (u := u) (q := '"') (s := t ++ '\\' :: e :: rest)
    (e := fun o => ⟨o + utf8Len ('"' :: t ++ ['\\']), some (o + utf8Len ('"' :: t ++ ['\\']) + 1),
      .strExpectedValidEscapeCode⟩) (.inl rfl) (by
    intro o
    simp only [if_true]
    refine ⟨⟨rest, o + utf8Len ('"' :: t ++ ['\\', e])⟩, ?_⟩
    simp only [parseString, token_eq]
    rw [strLoop_body hb, strLoop]
    simp only [true_and, if_true]
    rw [strLoop]
    simp only [hn, reduceCtorEq, and_false, if_false, if_true, ParseErrorKind.between]
    simp [Nat.add_assoc]) hp
  simpa [Nat.add_assoc] using this

/-- C13: a string literal that is not closed is an error. -/
theorem C13_string_unclosed (p s t : Str) (hp : OpenTxt u NoCustom (fun _ => True) .val p) (hb : StrBody s t) (esc : Bool) :
    ∃ r, fromStr u (p ++ '"' :: (t ++ if esc then ['\\'] else [])) =
      some (.error ⟨utf8Len (p ++ '"' :: (t ++ if esc then ['\\'] else [])),
        some (utf8Len (p ++ '"' :: (t ++ if esc then ['\\'] else [])) + 1),
        .strExpectedClosingQuoteToMatch (utf8Len p)⟩, r) := by
  have := literal_err (u := u) (q := '"') (s := t ++ if esc then ['\\'] else [])
    (e := fun o => ⟨o + utf8Len ('"' :: (t ++ if esc then ['\\'] else [])),
      some (o + utf8Len ('"' :: (t ++ if esc then ['\\'] else [])) + 1),
      .strExpectedClosingQuoteToMatch o⟩) (.inl rfl) (by
    intro o
    simp only [if_true]
    refine ⟨⟨[], o + utf8Len ('"' :: (t ++ if esc then ['\\'] else []))⟩, ?_⟩
    simp only [parseString, token_eq]
    rw [strLoop_body hb]
    cases esc
    · simp only [Bool.false_eq_true, if_false]
      rw [strLoop]
      simp [ParseErrorKind.atOne, Nat.add_assoc]
    · simp only [if_true]
      rw [strLoop]
      simp only [true_and, if_true]
      rw [strLoop]
      simp [ParseErrorKind.atOne, ParseErrorKind.between, Nat.add_assoc]) hp
  simpa [Nat.add_assoc] using this

/-- C13: an unknown escape in a char literal is an error, located right after the escape code. -/
theorem C13_char_bad_escape (p rest : Str) (e : Char) (hp : OpenTxt u NoCustom (fun _ => True) .val p)
    (he : ∀ d, ¬ Escape e d) : ∃ r, fromStr u (p ++ '\'' :: '\\' :: e :: rest) =
      some (.error ⟨utf8Len (p ++ ['\'', '\\', e]), some (utf8Len (p ++ ['\'', '\\', e]) + 1), .charExpectedValidEscapeCode⟩, r) := by
  have hn : fromEscapeCode e = none := by
    cases h : fromEscapeCode e with
    | none => rfl
    | some d => exact absurd (fromEscapeCode_iff.1 h) (he d)
  have := literal_err (u := u) (q := '\'') (s := '\\' :: e :: rest)
    (e := fun o => ⟨o + utf8Len ['\'', '\\', e], some (o + utf8Len ['\'', '\\', e] + 1),
      .charExpectedValidEscapeCode⟩) (.inr rfl) (by
    intro o
    simp only [Char.reduceEq, if_false]
    refine ⟨⟨rest, o + utf8Len ['\'', '\\', e]⟩, ?_⟩
    simp only [parseChar, token_eq, Toks.next, if_true, hn, ParseErrorKind.atOne]
    simp [Nat.add_assoc]) hp
  simpa using this

/-- C13: a char literal that is not closed right after its character is an error. -/
theorem C13_char_unclosed (p t rest : Str) (x : Char) (hp : OpenTxt u NoCustom (fun _ => True) .val p)
    (ht : (x ≠ '\\' ∧ t = [x]) ∨ ∃ e, Escape e x ∧ t = ['\\', e]) (hr : ∀ r, rest ≠ '\'' :: r) :
    ∃ r, fromStr u (p ++ '\'' :: (t ++ rest)) =
      some (.error ⟨utf8Len (p ++ '\'' :: t), some (utf8Len (p ++ '\'' :: t) + 1),
        .charExpectedClosingQuoteToMatch (utf8Len p)⟩, r) := by
  have := literal_err (u := u) (q := '\'') (s := t ++ rest)
    (e := fun o => ⟨o + utf8Len ('\'' :: t), some (o + utf8Len ('\'' :: t) + 1),
      .charExpectedClosingQuoteToMatch o⟩) (.inr rfl) (by
    intro o
    simp only [Char.reduceEq, if_false]
    refine ⟨⟨rest, o + utf8Len ('\'' :: t)⟩, ?_⟩
    have key : ∀ o', parseCharClose o x ⟨rest, o'⟩ =
        (.error (some ((ParseErrorKind.charExpectedClosingQuoteToMatch o).atOne o')), ⟨rest, o'⟩) := by
      intro o'
      rcases parseCharClose_cases o x ⟨rest, o'⟩ with ⟨r, h1, _⟩ | ⟨_, h⟩
      · exact absurd h1 (hr r)
      · exact h
    rcases ht with ⟨hx, rfl⟩ | ⟨e, he, rfl⟩
    · simp only [parseChar, token_eq, Toks.next, List.cons_append, List.nil_append, hx, if_false, key,
        ParseErrorKind.atOne]
      simp [Nat.add_assoc]
    · simp only [parseChar, token_eq, Toks.next, List.cons_append, List.nil_append, if_true, fromEscapeCode_iff.2 he, key,
        ParseErrorKind.atOne]
      simp [Nat.add_assoc]) hp
  simpa [Nat.add_assoc] using this

/-- The hypotheses are met: `(1, ` is the beginning of a text, `q` is no escape code. -/
example : OpenTxt Uni.ascii NoCustom (fun _ => True) .val "(1, ".toList ∧ StrBody ['\n'] ['\\', 'n'] ∧ ∀ d, ¬ Escape 'q' d := by
  refine ⟨?_, .esc .nl .nil, fun d h => by cases h⟩
  have h1 : Text Uni.ascii NoCustom (.u128 ⟨1, by decide⟩) ['1'] :=
    .builtin (.number (.plain (DecVal.single (c := '1') (by decide))))
  have := OpenTxt.unnamedLater (u := Uni.ascii) (X := NoCustom) (D := fun _ => True) (w := []) (w3 := []) (w4 := [' '])
    ws_nil (.val1 h1) ws_nil (ws_one ws_space) .here
  exact .composite trivial this

/-! ### C16 -/

/-- C16: a variant with an identifier name that begins with `true` or `false` does not survive: its text is
parsed to a bool, and something remains. -/
theorem C16_true_false_variants (alt : Bool) (n r : Str) (c : Composite T) (ctx : T) (hn : Ident u n)
    (b : Bool) (hb : n = (if b then ['t', 'r', 'u', 'e'] else ['f', 'a', 'l', 's', 'e']) ++ r)
    (h256 : ¬ Has256 (.mk (.variant (.mk n c)) ctx)) :
    ∃ s rest, (Value.mk (.variant (.mk n c)) ctx).toString u alt = some s ∧
      fromStr u s = some (.ok (.bool b), rest) ∧ rest ≠ [] := by
  obtain ⟨s, hs⟩ := (C07_display (u := u) alt _).2 h256
  have hs' := hs
  rw [toString_eq] at hs'
  simp only [Builder.toString, write_eq (represents_plain _ (default_cf alt) (default_pc alt)), default_wr, runTr_string] at hs'
  split at hs'
  · next hok =>
    simp only [Prod.mk.injEq] at hok
    cases hs'
    obtain ⟨hok, rfl⟩ := hok
    simp only [trValue, trContext, TrCfg.plain, seq_ok_left, trValueDef, trVariant, seq_ok, ok_variantName, ok_space,
      Bool.true_and] at hok hs
    rw [show ∀ t : Tr, t.1.flatten = t.txt from fun _ => rfl] at hs
    have e : (trVariantName u n).txt = n := by simp [trVariantName, isIdent_iff.2 hn]
    rw [txt_seq (by simp), txt_seq (by simp), e] at hs
    generalize (trComposite u _ c _).txt = x at hs
    have hs2 : some ([] ++ (n ++ ((trSpace (defaultBuilder (T := T) stringWriter alt).style).txt ++ x))) =
        some ((if b then ['t', 'r', 'u', 'e'] else ['f', 'a', 'l', 's', 'e']) ++
          (r ++ ((trSpace (defaultBuilder (T := T) stringWriter alt).style).txt ++ x))) := by rw [hb]; simp
    rw [hs2] at hs
    refine ⟨_, r ++ ((trSpace (defaultBuilder (T := T) stringWriter alt).style).txt ++ x), hs, ?_, ?_⟩
    · cases b
      · exact fromStr_iff.2 ⟨_, .builtin .false_, by simp, fun ⟨t, c, h, hd⟩ => by
          exfalso
          obtain ⟨-, h⟩ := List.append_inj' (s₁ := ['f', 'a', 'l', 's']) (t₁ := ['e']) h rfl
          simp at h; subst h; revert hd; decide⟩
      · exact fromStr_iff.2 ⟨_, .builtin .true_, by simp, fun ⟨t, c, h, hd⟩ => by
          exfalso
          obtain ⟨-, h⟩ := List.append_inj' (s₁ := ['t', 'r', 'u']) (t₁ := ['e']) h rfl
          simp at h; subst h; revert hd; decide⟩
    · cases alt <;> simp [defaultBuilder, Builder.new, Builder.pretty, trSpace]
  · cases hs'

example : ∃ s rest, (Value.mk (.variant (.mk "trueish".toList (.unnamed []))) ()).toString .ascii false = some s ∧
    fromStr .ascii s = some (.ok (.bool true), rest) ∧ rest ≠ [] :=
  C16_true_false_variants false _ "ish".toList _ () (.mk (by decide) (by decide)) true rfl (fun h => by
    cases h with | vunnamed hv _ => cases hv)

/-! ### C17 -/

/-- C17: the first of the formatters that accepts a value determines the result for it and what is written. -/
theorem C17_first_accepting (b : Builder T W) (before after : List (CustomFormatter T W)) (f : CustomFormatter T W)
    (hb : b.customFormatters = before ++ f :: after) (hc : b.printContext = none) (v : Value T) (w w' : W) (r : Bool)
    (hbefore : ∀ g ∈ before, g v w = (none, w)) (hf : f v w = (some r, w')) : b.write u v w = (r, w') := by
  have : runFormatters b.customFormatters v w = (some r, w') := by
    rw [hb]
    clear hb
    induction before with
    | nil => simp [runFormatters, hf]
    | cons g gs ih =>
      simp only [List.cons_append, runFormatters, hbefore g (by simp)]
      exact ih (fun g hg => hbefore g (by simp [hg]))
  obtain ⟨d, c⟩ := v
  simp only [Builder.write, fmtValue, fmtContext, hc, FM.andThen, FM.ok, this]

/-- C17: the text, exactly: at every nested value the first accepting formatter provides the text and its children
are not visited, and the default notation is used where none accepts (see `Shown`). If contexts are printed, that of each value shown goes right before it.
Whatever has a text is written, and nothing else is. -/
theorem C17_exact (o : FmtOpts T) (v : Value T) (s : Str) : (o.builder stringWriter).toString u v = some s ↔ Shown u o 0 (.val v) s := by
  rw [shown_iff]
  simp only [Builder.toString, o.write_eq, runTr_string, List.nil_append]
  cases (trValue u o.cfg v o.style).2 <;> simp [Tr.txt]

section
variable {b b' : Builder T W} (h1 : b.wr = b'.wr) (h2 : b.indentBy = b'.indentBy) (h3 : b.leadingIndent = b'.leadingIndent)
  (h4 : b.printContext = b'.printContext)
include h1

theorem congr_writeStr (s : Str) : writeStr b s = writeStr b' s := by unfold writeStr; rw [h1]
theorem congr_chars (s : Str) : writeChars b s = writeChars b' s := by
  induction s with
  | nil => rfl
  | cons c s ih => simp only [writeChars, writeEscaped, congr_writeStr h1, ih]
theorem congr_string (s : Str) : fmtString b s = fmtString b' s := by
  simp only [fmtString, congr_writeStr h1, congr_chars h1]
theorem congr_bits (s : List Bool) : writeBits b s = writeBits b' s := by
  induction s with
  | nil => rfl
  | cons c s ih => cases c <;> simp only [writeBits, congr_writeStr h1, ih]
theorem congr_space : space b = space b' := by funext f; unfold space; rw [congr_writeStr h1]
theorem congr_prim (p : Primitive) : fmtPrimitive b p = fmtPrimitive b' p := by
  cases p with
  | bool x => cases x <;> simp only [fmtPrimitive, congr_writeStr h1]
  | _ => simp only [fmtPrimitive, fmtChar, writeEscaped, writeI128, writeU128, congr_writeStr h1, congr_string h1]
include h2
theorem congr_indents (n : Nat) : writeIndents b n = writeIndents b' n := by
  induction n with
  | zero => rfl
  | succ n ih => simp only [writeIndents, congr_writeStr h1, ih, h2]
include h3
theorem congr_newline (n : Nat) : writeNewline b n = writeNewline b' n := by
  simp only [writeNewline, congr_writeStr h1, congr_indents h1 h2, h3]
theorem congr_nl : newline b = newline b' := by funext f; unfold newline; simp only [congr_newline h1 h2 h3]
theorem congr_sep : itemSeparator b = itemSeparator b' := by
  funext f; unfold itemSeparator; simp only [congr_newline h1 h2 h3, congr_writeStr h1]

include h4
theorem congr_value (hr : ∀ v w, runFormatters b.customFormatters v w = runFormatters b'.customFormatters v w)
    (v : Value T) : fmtValue u b v = fmtValue u b' v := by
  have step : ∀ d c, fmtValueDef u b d = fmtValueDef (T := T) u b' d → fmtValue u b (.mk d c) = fmtValue u b' (.mk d c) := by
    intro d c h
    simp only [fmtValue, fmtContext, hr, h, h4, congr_writeStr h1]
  have vals : ∀ vs : List (Value T), (∀ v ∈ vs, fmtValue u b v = fmtValue u b' v) → ∀ i,
      fmtVals u b i vs = fmtVals u b' i vs := by
    intro vs
    induction vs with
    | nil => intro _ i; rfl
    | cons v vs ih =>
      intro h i
      simp only [fmtVals, h v (by simp), ih (fun v hv => h v (by simp [hv])), congr_writeStr h1, congr_sep h1 h2 h3]
  have fields : ∀ vs : List (Str × Value T), (∀ v ∈ vs, fmtValue u b v.2 = fmtValue u b' v.2) → ∀ i,
      fmtFields u b i vs = fmtFields u b' i vs := by
    intro vs
    induction vs with
    | nil => intro _ i; rfl
    | cons v vs ih =>
      obtain ⟨n, v⟩ := v
      intro h i
      simp only [fmtFields, h (n, v) (by simp), ih (fun v hv => h v (by simp [hv])), congr_writeStr h1, congr_sep h1 h2 h3,
        congr_string h1, congr_space h1]
  induction v using Value.ind with
  | named fs c ih =>
    apply step; simp only [fmtValueDef, fmtComposite, fields fs ih, congr_writeStr h1, congr_sep h1 h2 h3]
  | unnamed fs c ih =>
    apply step; simp only [fmtValueDef, fmtComposite, vals fs ih, congr_writeStr h1, congr_nl h1 h2 h3]
  | vnamed n fs c ih =>
    apply step
    simp only [fmtValueDef, fmtVariant, fmtComposite, fields fs ih, congr_writeStr h1, congr_sep h1 h2 h3, congr_string h1,
      congr_space h1]
  | vunnamed n fs c ih =>
    apply step
    simp only [fmtValueDef, fmtVariant, fmtComposite, vals fs ih, congr_writeStr h1, congr_nl h1 h2 h3, congr_string h1,
      congr_space h1]
  | bits bs c => apply step; simp only [fmtValueDef, fmtBitSequence, congr_writeStr h1, congr_bits h1]
  | prim p c => apply step; simp only [fmtValueDef, congr_prim h1]
end

/-- C17: a formatter that never accepts and never writes changes nothing. -/
theorem C17_declining_is_noop (b : Builder T W) (before after : List (CustomFormatter T W)) (f : CustomFormatter T W)
    (hb : b.customFormatters = before ++ f :: after) (hf : ∀ v w, f v w = (none, w)) (v : Value T) (w : W) :
    b.write u v w = ({ b with customFormatters := before ++ after }).write u v w := by
  have hrun : ∀ v w, runFormatters b.customFormatters v w = runFormatters (before ++ after) v w := by
    intro v w
    rw [hb]
    clear hb
    induction before generalizing w with
    | nil => simp [runFormatters, hf]
    | cons g gs ih => simp only [List.cons_append, runFormatters, ih]
  have := congr_value (u := u) (b := b) (b' := { b with customFormatters := before ++ after }) rfl rfl rfl rfl hrun v
  simp only [Builder.write, this]

/-- A formatter that writes `#` for bools, and one that writes `?` for bools and chars. -/
def exFormatters : List (Value Unit → Option (List Str)) :=
  [fun v => match v with | .mk (.primitive (.bool _)) _ => some [['#']] | _ => none,
   fun v => match v with | .mk (.primitive (.bool _)) _ => some [['?']] | .mk (.primitive (.char _)) _ => some [['?']] | _ => none]

example : ((FmtOpts.mk .normal [] [] exFormatters none).builder stringWriter).toString .ascii
    (.unnamedComposite [.bool true, .char 'a', .u128 ⟨7, by decide⟩]) = some "(#, ?, 7)".toList := by decide +kernel

/-! ### C18 -/

/-- C18: for each value there is one list of writes (what a recording, never failing writer receives), and
any other writer gets these in order up to the first that fails; the result is a failure if one fails. -/
theorem C18_writer_failure (o : FmtOpts T) (v : Value T) {W : Type} (wr : Writer W) (w : W) :
    (o.builder wr).write u v w =
      match runWrites wr ((o.builder logWriter).write u v []).2 w with
      | (true, w') => (((o.builder logWriter).write u v []).1, w')
      | (false, w') => (false, w') := by
  simp only [o.write_eq, runTr_log, List.nil_append]
  rfl

/-- C18: what a writer has received when formatting ends is a prefix of the complete text. `got w` is the text
a writer has received. -/
theorem C18_prefix (o : FmtOpts T) (v : Value T) {W : Type} (wr : Writer W) (w : W) (got : W → Str)
    (hgot : ∀ s w, got (wr s w).2 = got w ++ if (wr s w).1 then s else []) :
    ∃ t, got ((o.builder wr).write u v w).2 = got w ++ t ∧ t <+: ((o.builder stringWriter).write u v []).2 ∧
      (((o.builder wr).write u v w).1 = true → t = ((o.builder stringWriter).write u v []).2 ∧
        ((o.builder stringWriter).write u v []).1 = true) := by
  simp only [o.write_eq, runTr_string, List.nil_append]
  generalize trValue u o.cfg v o.style = tr
  have key : ∀ (l : List Str) (w : W), ∃ t, got (runWrites wr l w).2 = got w ++ t ∧ t <+: l.flatten ∧
      ((runWrites wr l w).1 = true → t = l.flatten) := by
    intro l
    induction l with
    | nil => intro w; exact ⟨[], by simp [runWrites]⟩
    | cons s l ih =>
      intro w
      have h := hgot s w
      cases hw : wr s w with
      | mk ok w' =>
        rw [hw] at h
        cases ok with
        | false => exact ⟨[], by simp [runWrites, hw]; simpa using h⟩
        | true =>
          obtain ⟨t, h1, h2, h3⟩ := ih w'
          refine ⟨s ++ t, ?_, ?_, ?_⟩
          · simp only [runWrites, hw]; simp at h; rw [h1, h, List.append_assoc]
          · simpa using h2
          · intro h; simp only [runWrites, hw] at h; simp [h3 h]
  obtain ⟨t, h1, h2, h3⟩ := key tr.1 w
  refine ⟨t, ?_, h2, ?_⟩
  · rw [← h1]; unfold runTr; cases runWrites wr tr.1 w with | mk ok w' => cases ok <;> rfl
  · unfold runTr
    cases hr : runWrites wr tr.1 w with
    | mk ok w' =>
      cases ok with
      | false => intro h; cases h
      | true => intro h; exact ⟨h3 (by rw [hr]), h⟩

/-- A writer that accepts five characters. -/
def limited : Writer Str := fun s w => if (w ++ s).length ≤ 5 then (true, w ++ s) else (false, w)

example : (∀ s w, id (limited s w).2 = id w ++ if (limited s w).1 then s else []) ∧
    ((FmtOpts.mk .normal [] [] [] none).builder limited).write .ascii exPrintable [] = (false, "v\"x y".toList) := by
  constructor
  · intro s w; unfold limited; split <;> simp
  · decide +kernel

/-! ### C19 -/

theorem layout_of {P : Nat → Char → Str → Prop} {Fam : Style → Nat → Prop} {d : Nat} (b : Builder T Str) (hw : b.wr = stringWriter)
    (hf : b.customFormatters = []) (hc : b.printContext = none)
    (L : Lay u (TrCfg.plain (T := T) b.indentBy b.leadingIndent) P Fam) (hF : Fam b.style d) (v : Value T) (s : Str)
    (h : b.toString u v = some s) : ScanAll P .out d s := by
  simp only [Builder.toString, write_eq (represents_plain b hf hc), hw, runTr_string] at h
  split at h
  · next hok =>
    simp only [Prod.mk.injEq] at hok
    cases h
    obtain ⟨hok, rfl⟩ := hok
    have := (seg_value L rfl (fun _ => rfl) v b.style d hF hok).1 [] trivial
    simpa [Tr.txt] using this
  · cases h

/-- C19: compact output has no whitespace outside of quotes. -/
theorem C19_compact (b : Builder T Str) (hw : b.wr = stringWriter) (hf : b.customFormatters = [])
    (hc : b.printContext = none) (hs : b.style = .compact) (v : Value T) (s : Str) (h : b.toString u v = some s) :
    OutsideAll (fun c => u.ws c = false) .out s :=
  scanAll_outside (layout_of (d := 0) b hw hf hc (lay_compact _) hs v s h)

/-- C19: normal output has no whitespace but spaces outside of quotes; in particular no line breaks. -/
theorem C19_normal (b : Builder T Str) (hw : b.wr = stringWriter) (hf : b.customFormatters = [])
    (hc : b.printContext = none) (hs : b.style = .normal) (v : Value T) (s : Str) (h : b.toString u v = some s) :
    OutsideAll (fun c => u.ws c = true → c = ' ') .out s :=
  scanAll_outside (layout_of (d := 0) b hw hf hc (lay_normal _) hs v s h)

/-- C19: in pretty output every line (after the first) begins with the leading indent and one indent per open bracket,
and there is a line break after every comma and every opening bracket of a non-empty composite. The indents must not
themselves contain line breaks, brackets, commas or quotes. -/
theorem C19_pretty (b : Builder T Str) (hw : b.wr = stringWriter) (hf : b.customFormatters = [])
    (hc : b.printContext = none) (n : Nat) (hs : b.style = .pretty n)
    (hi : ∀ c ∈ b.indentBy ++ b.leadingIndent, c ∉ ['\n', ',', '(', ')', '{', '}', '"', '\''])
    (v : Value T) (s : Str) (h : b.toString u v = some s) :
    ScanAll (LineIndented b.leadingIndent b.indentBy) .out n s ∧ ScanAll LineBroken .out n s := by
  have hi' : ∀ c ∈ b.indentBy ++ b.leadingIndent, IndentChar c := by
    intro c hc
    have := hi c hc
    simpa [IndentChar] using this
  have := layout_of (u := u) (d := n) b hw hf hc
    (lay_pretty (C := TrCfg.plain b.indentBy b.leadingIndent) (fun c h => hi' c (by simp [h]; exact .inl h))
      (fun c h => hi' c (by simp; exact .inr h))) hs v s h
  exact ⟨scanAll_imp (fun _ _ _ h => h.1) this, scanAll_imp (fun _ _ _ h => h.2) this⟩

example : ((Builder.new (T := Nat) stringWriter).pretty.setLeadingIndent ['*']).toString .ascii exPrintable =
    some "v\"x y\" (\n*  {\n*    a: -7,\n*    \"b c\": \"\\n\\\"é\"\n*  },\n*  <101>\n*)".toList := by decide +kernel
example : (Builder.new (T := Nat) stringWriter).compact.toString .ascii exPrintable =
    some "v\"x y\"({a:-7,\"b c\":\"\\n\\\"é\"},<101>)".toList := by decide +kernel

/-- The options of `Display`: pretty style for `{:#}`, normal style otherwise, an indent of two spaces, and no contexts. -/
def displayOpts (alt : Bool) : FmtOpts T where
  style := if alt then .pretty 0 else .normal
  indentBy := "  ".toList
  leadingIndent := []
  formatters := []
  context := none

/-- C19: what `Display` writes for a value, exactly. -/
theorem C19_display (alt : Bool) (v : Value T) (s : Str) : v.toString u alt = some s ↔ Shown u (displayOpts alt) 0 (.val v) s := by
  rw [toString_eq, ← C17_exact]
  have : defaultBuilder (T := T) stringWriter alt = (displayOpts alt).builder stringWriter := by cases alt <;> rfl
  rw [this]

/-- C19: composites, variants and primitives by themselves are displayed like the values that are made of them, on any writer. -/
theorem C19_display_parts (wr : Writer W) (alt : Bool) (c : Composite T) (v : Variant T) (p : Primitive) (x : T) (w : W) :
    c.display u wr alt w = (Value.mk (.composite c) x).display u wr alt w ∧
    v.display u wr alt w = (Value.mk (.variant v) x).display u wr alt w ∧
    p.display wr alt w = (Value.mk (.primitive p) x).display u wr alt w := by
  refine ⟨by rw [Value.display, fmtValueDef]; rfl, by rw [Value.display, fmtValueDef]; rfl, ?_⟩
  rw [Value.display, fmtValueDef, Primitive.display]
  have h := (sameOut_default (T := T) (U := Unit) wr alt).fmtPrimitive p
  rw [h, (sameOut_default (T := T) (U := Unit) wr alt).style]

/-! ### C16, exactly -/

/-- C16: printing without custom formatters and contexts, in any style with whitespace as indent, and then parsing gives the value back (and
consumes everything) exactly for the printable values: those without 256 bit numbers, non-negative signed numbers, and variants
whose names are identifiers that begin with `true` or `false`, at any depth. -/
theorem C16_exactly_printable (o : FmtOpts T) (hf : o.formatters = []) (hc : o.context = none) (hi : Ws u o.indentBy) (hl : Ws u o.leadingIndent)
    (v : Value T) :
    (∃ s, (o.builder stringWriter).toString u v = some s ∧ fromStr u s = some (.ok v.removeContext, [])) ↔ Printable u v := by
  constructor
  · rintro ⟨s, h1, h2⟩
    obtain ⟨x, h3, h4, h5⟩ := fromStr_iff.1 h2
    exact ((C17_exact o v s).1 h1).survives ⟨hf, hc, hi, hl⟩ x [] [] (by simpa using h4) h3 h5 trivial
  · intro hp
    obtain ⟨s, h1, h2⟩ := C06_all_styles_round_trip (u := u) (o.builder stringWriter) rfl (by simp [FmtOpts.builder, hf]) (by simp [FmtOpts.builder, hc]) hi hl v hp
    exact ⟨s, h1, by simpa using h2 [] (fun _ => trivial)⟩

/-- C16 for `Display`. -/
theorem C16_display_exactly_printable (alt : Bool) (v : Value T) :
    (∃ s, v.toString u alt = some s ∧ fromStr u s = some (.ok v.removeContext, [])) ↔ Printable u v := by
  have : defaultBuilder (T := T) stringWriter alt = (displayOpts alt).builder stringWriter := by cases alt <;> rfl
  rw [toString_eq, this]
  exact C16_exactly_printable (displayOpts alt) rfl rfl
    (by intro c hc; simp [displayOpts] at hc; subst hc; exact ws_space) ws_nil v

/-- Nested values that do not come back: a non-negative signed number, and a variant named `falsehood`. -/
example : (¬ ∃ s, (Value.unnamedComposite [.bool true, .i128 ⟨7, by decide, by decide⟩]).toString .ascii false = some s ∧
      fromStr .ascii s = some (.ok (Value.unnamedComposite [.bool true, .i128 ⟨7, by decide, by decide⟩]).removeContext, [])) ∧
    (¬ ∃ s, (Value.namedComposite [("a".toList, .unnamedVariant "falsehood".toList [])]).toString .ascii true = some s ∧
      fromStr .ascii s = some (.ok (Value.namedComposite [("a".toList, .unnamedVariant "falsehood".toList [])]).removeContext, [])) := by
  constructor
  · rw [C16_display_exactly_printable]
    intro h
    cases h with
    | unnamed h =>
      have := h (.i128 ⟨7, by decide, by decide⟩) (by simp)
      cases this with
      | prim h => simp [PrimOk] at h
  · rw [C16_display_exactly_printable]
    intro h
    cases h with
    | named h =>
      have := h ("a".toList, .unnamedVariant "falsehood".toList []) (by simp)
      cases this with
      | vunnamed hn _ => exact (hn (.mk (by decide) (by decide))).2 ⟨"hood".toList, rfl⟩

end SV
