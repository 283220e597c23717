import Verif.Proofs.Hex
import Verif.Props.Format
/-
Properties C21 - C23: hexadecimal notation.
-/
namespace SV

variable {T W : Type} {u : Uni}

/-! ### C23 -/

/-- C23: the unchecked conversion of the remaining bytes is never undefined behaviour. -/
theorem C23_never_undefined (s : Str) : ∃ r, parseHex? s = some r ∧ parseHex s = r := by
  suffices h : ∃ r, parseHex? s = some r by
    obtain ⟨r, h⟩ := h
    exact ⟨r, h, by simp [parseHex, h]⟩
  by_cases h : ['0', 'x'] <+: s
  · obtain ⟨s, rfl⟩ := h
    obtain ⟨bs, t, d, r, rfl, ht, hd, hr⟩ := hex_split s
    simp only [List.cons_append, List.nil_append]
    rcases hr with hr | ⟨c, r', rfl, ha, hn⟩
    · rcases hd with rfl | ⟨e, n, he, rfl⟩
      · exact ⟨_, by simpa using parseHex_ok ht hr⟩
      · exact ⟨_, by simpa using parseHex_odd ht he hr⟩
    · exact ⟨_, by simpa using parseHex_invalid (rest := r') ht hd ha hn⟩
  · exact ⟨_, parseHex_none h⟩

theorem parseHex_eq {s : Str} {r : Option (Except ParseError (Value Unit)) × Str} (h : parseHex? s = some r) : parseHex s = r := by
  simp [parseHex, h]

/-! ### C21 -/

/-- C21: `0x` and an even number of digits, up to the first character that is no ASCII letter or digit. -/
theorem C21_even (bs : List UInt8) (t rest : Str) (h : HexText bs t) (hr : NotAlnumCont rest) :
    parseHex ('0' :: 'x' :: t ++ rest) = (some (.ok (.fromBytes bs)), rest) := parseHex_eq (parseHex_ok h hr)

/-- C21: an odd number of digits is an error about the whole of the digits, and consumes nothing. -/
theorem C21_odd (bs : List UInt8) (t rest : Str) (c : Char) (n : Nat) (h : HexText bs t) (hc : HexDigit c n)
    (hr : NotAlnumCont rest) : ∃ e, e.startLoc = 0 ∧ e.endLoc = some ('0' :: 'x' :: t ++ [c]).length ∧ e.err = hexWrongLength ∧
      parseHex ('0' :: 'x' :: t ++ c :: rest) = (some (.error e), '0' :: 'x' :: t ++ c :: rest) :=
  ⟨_, rfl, by simp [ParseErrorKind.between]; omega, rfl, parseHex_eq (parseHex_odd h hc hr)⟩

/-- C21: a letter that is no hexadecimal digit, after any number of them (the digits of `bs`, and possibly one more), is an
error at this letter, and nothing is consumed. -/
theorem C21_invalid (bs : List UInt8) (t d rest : Str) (c : Char) (h : HexText bs t)
    (hd : d = [] ∨ ∃ e n, HexDigit e n ∧ d = [e]) (hc : isAsciiAlnum c = true) (hn : ∀ n, ¬ HexDigit c n) :
    ∃ e, e.startLoc = ('0' :: 'x' :: t ++ d).length ∧ e.endLoc = none ∧ e.err = hexInvalidChar c ∧
      parseHex ('0' :: 'x' :: t ++ d ++ c :: rest) = (some (.error e), '0' :: 'x' :: t ++ d ++ c :: rest) :=
  ⟨_, by simp [ParseErrorKind.at]; omega, rfl, rfl, parseHex_eq (parseHex_invalid h hd hc hn)⟩

/-- C21: texts that do not begin with `0x` are declined, and left as they are. -/
theorem C21_decline (s : Str) (h : ¬ ['0', 'x'] <+: s) : parseHex s = (none, s) := parseHex_eq (parseHex_none h)

/-- C21: nothing else is accepted: the result of a success, and what it leaves, are as in `C21_even`. -/
theorem C21_success_iff (s rest : Str) (v : Value Unit) : parseHex s = (some (.ok v), rest) ↔
    ∃ bs t, s = '0' :: 'x' :: t ++ rest ∧ HexText bs t ∧ NotAlnumCont rest ∧ v = .fromBytes bs := by
  constructor
  · intro h
    by_cases hs : ['0', 'x'] <+: s
    · obtain ⟨s, rfl⟩ := hs
      obtain ⟨bs, t, d, r, rfl, ht, hd, hr⟩ := hex_split s
      rcases hr with hr | ⟨c, r', rfl, ha, hn⟩
      · rcases hd with rfl | ⟨e, n, he, rfl⟩
        · have := parseHex_eq (parseHex_ok ht hr)
          rw [show ['0', 'x'] ++ (t ++ [] ++ r) = '0' :: 'x' :: t ++ r by simp, this] at h
          cases h
          exact ⟨bs, t, by simp, ht, hr, rfl⟩
        · have := parseHex_eq (parseHex_odd ht he hr)
          rw [show ['0', 'x'] ++ (t ++ [e] ++ r) = '0' :: 'x' :: t ++ e :: r by simp, this] at h
          cases h
      · have := parseHex_eq (parseHex_invalid (rest := r') ht hd ha hn)
        rw [show ['0', 'x'] ++ (t ++ d ++ c :: r') = '0' :: 'x' :: t ++ d ++ c :: r' by simp, this] at h
        cases h
    · rw [C21_decline s hs] at h; cases h
  · rintro ⟨bs, t, rfl, ht, hr, rfl⟩; exact C21_even bs t rest ht hr

/-- C21: a call that does not succeed leaves the text as it is. -/
theorem C21_untouched (s rest : Str) (r : Option (Except ParseError (Value Unit))) (h : parseHex s = (r, rest))
    (hr : ∀ v, r ≠ some (.ok v)) : rest = s := by
  by_cases hs : ['0', 'x'] <+: s
  · obtain ⟨s, rfl⟩ := hs
    have key : parseHex ('0' :: 'x' :: s) = (r, rest) := h
    obtain ⟨x, hx, hx2⟩ := C23_never_undefined ('0' :: 'x' :: s)
    rw [hx2] at key; subst key
    rw [parseHex_some] at hx
    split at hx
    · cases hx; rfl
    · split at hx
      · cases hx; rfl
      · split at hx
        · cases hx
        · cases hx; exact absurd rfl (hr _)
  · rw [C21_decline s hs] at h; cases h; rfl

/-- C23: after a success the remaining bytes are the bytes of the remaining string, which is a suffix. -/
theorem C23_suffix (s rest : Str) (v : Value Unit) (h : parseHex s = (some (.ok v), rest)) :
    ∃ p, s = p ++ rest ∧ utf8Bytes rest = (utf8Bytes s).drop (utf8Bytes p).length ∧ (∀ c ∈ p, c.toNat < 128) ∧
      p.length % 2 = 0 := by
  obtain ⟨bs, t, rfl, ht, hr, rfl⟩ := (C21_success_iff _ _ _).1 h
  refine ⟨'0' :: 'x' :: t, rfl, ?_, ?_, ?_⟩
  · rw [utf8Bytes_append, List.drop_left]
  · intro c hc
    rcases List.mem_cons.1 hc with rfl | hc
    · decide
    rcases List.mem_cons.1 hc with rfl | hc
    · decide
    exact ht.ascii c hc
  · have : ∀ {bs t}, HexText bs t → t.length % 2 = 0 := by
      intro bs t h
      induction h with
      | nil => rfl
      | cons _ _ _ ih => simp; omega
    have := this ht
    simp; omega

example : parseHex "0x0aFf, é".toList = (some (.ok (.fromBytes [10, 255])), ", é".toList) :=
  C21_even [10, 255] "0aFf".toList ", é".toList
    (.cons (.inl rfl) (.inr rfl) (.cons (.inl rfl) (.inr rfl) .nil)) rfl
example : (parseHex "0x0aé".toList) = (some (.ok (.fromBytes [10])), "é".toList) :=
  C21_even [10] "0a".toList "é".toList (.cons (.inl rfl) (.inr rfl) .nil) rfl

/-! ### C22 -/

theorem isBytes_iff {v : Value T} {bs : List UInt8} : IsBytes bs v ↔
    ∃ vs c, v = .mk (.composite (.unnamed vs)) c ∧ vs.map (fun v => v.value) = bs.map (fun b => .primitive (.u128 (.ofU8 b))) :=
  ⟨fun ⟨h⟩ => ⟨_, _, rfl, h⟩, fun ⟨_, _, h1, h2⟩ => h1 ▸ ⟨h2⟩⟩

/-- The check of `format_hex` accepts lists of bytes only. -/
theorem hex_all {vs : List (Value T)} : (vs.all fun v => match v.asU128Prim with
      | some n => decide (n.val < 256)
      | none => false) = true ↔ ∃ bs : List UInt8, vs.map (fun v => v.value) = bs.map (fun b => .primitive (.u128 (.ofU8 b))) := by
  induction vs with
  | nil => exact ⟨fun _ => ⟨[], rfl⟩, fun _ => rfl⟩
  | cons v vs ih =>
    rw [List.all_cons, Bool.and_eq_true, ih]
    constructor
    · rintro ⟨h1, bs, h2⟩
      obtain ⟨d, c⟩ := v
      cases hd : (Value.mk d c).asU128Prim with
      | none => rw [hd] at h1; cases h1
      | some n =>
        rw [hd] at h1
        simp only [decide_eq_true_eq] at h1
        refine ⟨UInt8.ofNat n.val :: bs, ?_⟩
        simp only [List.map_cons, h2, List.cons.injEq, and_true]
        cases d with
        | primitive p =>
          cases p <;> simp only [Value.asU128Prim] at hd <;> cases hd
          simp only [Value.value, ValueDef.primitive.injEq, Primitive.u128.injEq]
          apply U128.ext'
          simp; omega
        | _ => simp only [Value.asU128Prim] at hd; cases hd
    · rintro ⟨bs, h⟩
      cases bs with
      | nil => cases h
      | cons b bs =>
        simp only [List.map_cons, List.cons.injEq] at h
        refine ⟨?_, bs, h.2⟩
        obtain ⟨d, c⟩ := v
        simp only [Value.value] at h
        rw [h.1]
        exact decide_eq_true b.toNat_lt

/-- The writes of `format_hex` for some bytes: `0x`, then each digit. -/
def hexWrites (bs : List UInt8) : List Str := ['0', 'x'] :: (upperHex bs).map fun c => [c]

theorem u4ToHex_eq : ∀ n, n < 16 → u4ToHex n = upperDigits.getD n '?' := by decide

theorem hexLoop_eq (wr : Writer W) : ∀ {vs : List (Value T)} {bs : List UInt8},
    vs.map (fun v => v.value) = bs.map (fun b => .primitive (.u128 (.ofU8 b))) → ∀ w,
    hexLoop wr vs w = runWrites wr ((upperHex bs).map fun c => [c]) w := by
  intro vs
  induction vs with
  | nil => intro bs h w; cases bs with
    | nil => rfl
    | cons b bs => cases h
  | cons v vs ih =>
    intro bs h w
    cases bs with
    | nil => cases h
    | cons b bs =>
      simp only [List.map_cons, List.cons.injEq] at h
      obtain ⟨d, c⟩ := v
      simp only [Value.value] at h
      have hb := b.toNat_lt
      have e : (U128.ofU8 b).val % 256 = b.toNat := Nat.mod_eq_of_lt hb
      rw [h.1]
      simp only [hexLoop, Value.asU128Prim, e, upperHex, List.map_cons, runWrites, u4ToHex_eq (b.toNat / 16) (by omega),
        u4ToHex_eq (b.toNat % 16) (by omega), ih h.2]
      rcases wr [upperDigits.getD (b.toNat / 16) '?'] w with ⟨_ | _, w1⟩
      · rfl
      · simp only
        rcases wr [upperDigits.getD (b.toNat % 16) '?'] w1 with ⟨_ | _, w2⟩ <;> rfl

/-- C22: on a nonempty unnamed composite of bytes, `format_hex` answers, and writes `0x` and the upper case digits. -/
theorem C22_accepts (wr : Writer W) (bs : List UInt8) (hb : bs ≠ []) (v : Value T) (hv : IsBytes bs v) (w : W) :
    formatHex wr v w = (some (runWrites wr (hexWrites bs) w).1, (runWrites wr (hexWrites bs) w).2) := by
  obtain ⟨vs, c, rfl, h⟩ := isBytes_iff.1 hv
  have hne : vs.isEmpty = false := by
    cases vs with
    | nil => cases bs with
      | nil => exact absurd rfl hb
      | cons _ _ => cases h
    | cons _ _ => rfl
  unfold formatHex
  simp only
  rw [if_neg (by simp [hne])]
  refine (if_pos (hex_all.2 ⟨bs, h⟩)).trans ?_
  simp only [hexWrites, runWrites, hexLoop_eq wr h]
  rcases wr ['0', 'x'] w with ⟨_ | _, w1⟩ <;> rfl

/-- C22: on a string, that is appending `0x` and the upper case digits. -/
theorem C22_text (bs : List UInt8) (hb : bs ≠ []) (v : Value T) (hv : IsBytes bs v) (w : Str) :
    formatHex stringWriter v w = (some true, w ++ '0' :: 'x' :: upperHex bs) := by
  have : ∀ l : Str, (List.map (fun c => [c]) l).flatten = l := by
    intro l; induction l with
    | nil => rfl
    | cons c l ih => simp [ih]
  rw [C22_accepts _ bs hb v hv]
  simp only [runWrites_string, hexWrites, List.flatten_cons, this]
  rfl

/-- C22: any other value is declined, and nothing is written. -/
theorem C22_declines (wr : Writer W) (v : Value T) (h : ¬ ∃ bs, bs ≠ [] ∧ IsBytes bs v) (w : W) :
    formatHex wr v w = (none, w) := by
  unfold formatHex
  split
  · next vs c =>
    split
    · rfl
    · next hne =>
      rw [if_neg]
      intro h2
      obtain ⟨bs, h3⟩ := hex_all.1 h2
      refine h ⟨bs, ?_, isBytes_iff.2 ⟨vs, c, rfl, h3⟩⟩
      rintro rfl
      cases vs with
      | nil => exact hne rfl
      | cons _ _ => cases h3
  · rfl

theorem upperHex_text : ∀ bs, HexText bs (upperHex bs)
  | [] => .nil
  | b :: bs => by
    have hb := b.toNat_lt
    have : ∀ n, n < 16 → upperDigits[n]? = some (upperDigits.getD n '?') := by decide
    exact .cons (.inl (this _ (by omega))) (.inl (this _ (by omega))) (upperHex_text bs)

/-- Nonempty byte strings, as `format_hex` prints them. -/
noncomputable def hexFmt (v : Value T) : Option (List Str) :=
  open Classical in if h : ∃ bs, bs ≠ [] ∧ IsBytes bs v then some (hexWrites h.choose) else none

theorem formatHex_eq (wr : Writer W) : formatHex (T := T) wr = fun v w => match hexFmt v with
    | none => (none, w)
    | some ws => (some (runWrites wr ws w).1, (runWrites wr ws w).2) := by
  funext v w
  by_cases h : ∃ bs, bs ≠ [] ∧ IsBytes bs v
  · have e : hexFmt v = some (hexWrites h.choose) := by simp [hexFmt, h]
    rw [e, C22_accepts wr _ h.choose_spec.1 v h.choose_spec.2]
  · have e : hexFmt v = none := by simp [hexFmt, h]
    rw [e, C22_declines wr v h]

/-- With custom formatters that do not fail by themselves, only 256 bit numbers make the formatter fail. -/
theorem cust_ok {C : TrCfg T} (hctx : C.ctx = none) (hc : ∀ v t, C.cust v = some t → t.2 = true) (v : Value T) :
    ¬ Has256 v → ∀ st, (trValue u C v st).2 = true := by
  have step : ∀ (d : ValueDef T) (c : T) (st : Style), (trValueDef u C d st).2 = true → (trValue u C (.mk d c) st).2 = true := by
    intro d c st h
    simp only [trValue, trContext, hctx, seq_ok_left]
    cases e : C.cust (.mk d c) with
    | none => exact h
    | some t => exact hc _ _ e
  induction v using Value.ind with
  | named fs c ih =>
    intro h st
    refine step _ _ _ ?_
    simp only [trValueDef]
    rw [comp_named_ok]
    exact fun p hp => ih p hp (fun h2 => h (.named hp h2)) _
  | unnamed fs c ih =>
    intro h st
    refine step _ _ _ ?_
    simp only [trValueDef]
    rw [comp_unnamed_ok]
    exact fun p hp => ih p hp (fun h2 => h (.unnamed hp h2)) _
  | vnamed n fs c ih =>
    intro h st
    refine step _ _ _ ?_
    simp only [trValueDef, trVariant, seq_ok, ok_variantName, ok_space, Bool.true_and]
    rw [comp_named_ok]
    exact fun p hp => ih p hp (fun h2 => h (.vnamed hp h2)) _
  | vunnamed n fs c ih =>
    intro h st
    refine step _ _ _ ?_
    simp only [trValueDef, trVariant, seq_ok, ok_variantName, ok_space, Bool.true_and]
    rw [comp_unnamed_ok]
    exact fun p hp => ih p hp (fun h2 => h (.vunnamed hp h2)) _
  | bits b c => intro _ st; refine step _ _ _ ?_; simp only [trValueDef, ok_bitseq]
  | prim p c =>
    intro h st
    refine step _ _ _ ?_
    simp only [trValueDef]
    cases p with
    | u256 b => exact absurd .u256 h
    | i256 b => exact absurd .i256 h
    | bool b => cases b <;> simp [trPrimitive]
    | _ => simp [trPrimitive]

/-- What may follow a text in the language with hexadecimal notation. -/
def HexFollow (s rest : Str) : Prop := PlainFollow s rest ∧ NotAlnumCont rest

theorem isBytes_fromBytes {bs : List UInt8} {v : Value Unit} (hv : IsBytes bs v) : v = .fromBytes bs := by
  obtain ⟨vs, c, rfl, h⟩ := isBytes_iff.1 hv
  clear hv
  have : vs = bs.map fun b => .u128 (.ofU8 b) := by
    induction vs generalizing bs with
    | nil => cases bs with
      | nil => rfl
      | cons _ _ => cases h
    | cons v vs ih =>
      cases bs with
      | nil => cases h
      | cons b bs =>
        simp only [List.map_cons, List.cons.injEq] at h ⊢
        exact ⟨by obtain ⟨d, c⟩ := v; simp only [Value.value] at h; rw [h.1]; rfl, ih h.2⟩
  rw [this]; rfl

theorem isBytes_removeContext {bs : List UInt8} {v : Value T} (hv : IsBytes bs v) : IsBytes bs v.removeContext := by
  obtain ⟨vs, c, rfl, h⟩ := isBytes_iff.1 hv
  clear hv
  refine isBytes_iff.2 ⟨(mapValsS (fun (s : Unit) _ => ((), s)) vs ()), (), rfl, ?_⟩
  induction vs generalizing bs with
  | nil => cases bs with
    | nil => rfl
    | cons _ _ => cases h
  | cons v vs ih =>
    cases bs with
    | nil => cases h
    | cons b bs =>
      simp only [mapValsS, List.map_cons, List.cons.injEq] at h ⊢
      refine ⟨?_, ih h.2⟩
      obtain ⟨d, c⟩ := v
      simp only [Value.value] at h
      rw [h.1]; rfl

theorem DecVal.chars {t : Str} {n : Nat} (h : DecVal t n) : ∀ c ∈ t, isDigit c = true ∨ c = '_' := by
  induction h with
  | single hc => intro d hd; simp at hd; subst hd; exact .inl hc
  | digit h hc ih =>
    intro d hd
    rcases List.mem_append.1 hd with hd | hd
    · exact ih d hd
    · simp at hd; subst hd; exact .inl hc
  | underscore h ih =>
    intro d hd
    rcases List.mem_append.1 hd with hd | hd
    · exact ih d hd
    · simp at hd; subst hd; exact .inr rfl

theorem digits_not_0x {t rest : Str} (h : ∀ c ∈ t, isDigit c = true ∨ c = '_') (hne : t ≠ []) (hr : NotAlnumCont rest) :
    ¬ ['0', 'x'] <+: t ++ rest := by
  rintro ⟨r, hr'⟩
  match t with
  | [] => exact hne rfl
  | [c] =>
    simp only [List.cons_append, List.nil_append, List.cons.injEq] at hr'
    rw [← hr'.2] at hr
    revert hr; simp only [NotAlnumCont]; decide
  | c :: d :: t =>
    simp only [List.cons_append, List.nil_append, List.cons.injEq] at hr'
    have := h d (by simp)
    rw [← hr'.2.1] at this
    revert this; decide

theorem blt_not_0x {X : Value Unit → Str → Prop} {v : Value Unit} {s rest : Str} (h : Txt u X (.blt v) s)
    (hr : NotAlnumCont rest) : ¬ ['0', 'x'] <+: s ++ rest := by
  have key : ∀ {c : Char} {t : Str}, c ≠ '0' → s = c :: t → ¬ ['0', 'x'] <+: s ++ rest := by
    rintro c t hc rfl ⟨r, hr⟩
    simp only [List.cons_append, List.cons.injEq] at hr
    exact hc hr.1.symm
  cases h with
  | true_ => exact key (by decide) rfl
  | false_ => exact key (by decide) rfl
  | char h => cases h <;> exact key (by decide) rfl
  | string h => cases h; exact key (c := '"') (by decide) (by simp; rfl)
  | number h =>
    cases h with
    | plain h => exact digits_not_0x h.chars (List.ne_nil_of_length_pos h.length_pos) hr
    | plus h => exact key (c := '+') (by decide) rfl
    | minus h => exact key (c := '-') (by decide) rfl
  | bits => exact key (c := '<') (by decide) rfl
  | composite h =>
    cases h with
    | namedEmpty => exact key (c := '{') (by decide) rfl
    | unnamedEmpty => exact key (c := '(') (by decide) rfl
    | named => exact key (c := '{') (by decide) (by simp; rfl)
    | unnamed => exact key (c := '(') (by decide) (by simp; rfl)
  | variant hn hw h =>
    cases hn with
    | ident h h1 h2 =>
      cases h with
      | mk hc hcs =>
        refine key (c := _) ?_ (by simp; exact ⟨rfl, rfl⟩)
        rintro rfl
        rw [u.alpha_ascii _ (by decide)] at hc
        revert hc; decide
    | quoted h => exact key (c := 'v') (by decide) (by simp; rfl)

theorem hex_implements : Implements u [parseHex] HexNotation HexFollow where
  sep := by
    intro s c r h
    refine ⟨Implements.plain.sep s c r h, ?_⟩
    show isAsciiAlnum c = false
    rcases h with h | rfl | rfl | rfl
    · by_cases hc : c.toNat < 128
      · have := u.ws_ascii c hc
        rw [h] at this
        simp [isAsciiWs] at this
        simp [isAsciiAlnum, isAsciiLetter, isDigit]; omega
      · simp [isAsciiAlnum, isAsciiLetter, isDigit]; omega
    · rfl
    · rfl
    · rfl
  num := fun p s rest h hf => Implements.plain.num (u := u) p s rest h hf.1
  accept := by
    rintro v s rest ⟨bs, t, hv, rfl, ht⟩ hf
    have h1 := C21_even bs t rest ht hf.2
    rw [isBytes_fromBytes hv]
    refine ⟨by simp only [runCustom, h1], ?_⟩
    intro c hc
    apply size_ascii
    rcases List.mem_cons.1 hc with rfl | hc
    · decide
    rcases List.mem_cons.1 hc with rfl | hc
    · decide
    exact ht.ascii c hc
  decline := by
    intro v s rest h hf
    refine ⟨s ++ rest, ?_⟩
    have : ¬ ['0', 'x'] <+: s ++ rest := by
      rintro ⟨r, hr⟩
      exact blt_not_0x h hf.2 ⟨r, hr⟩
    simp only [runCustom, C21_decline _ this]
  head := by
    rintro v s ⟨bs, t, _, rfl, _⟩
    exact ⟨'0', 'x' :: t, rfl, by rw [u.ws_ascii _ (by decide)]; decide, by decide, by decide⟩

/-- C22: what a builder with `format_hex` (in any style) writes for a printable value, followed by a text that does not
continue a number or word, parses back with `parse_hex` to that value, at whatever depth the byte strings are. -/
theorem C22_nested_round_trip (b : Builder T Str) (hw : b.wr = stringWriter) (hf : b.customFormatters = [formatHex stringWriter])
    (hc : b.printContext = none) (hi : Ws u b.indentBy) (hl : Ws u b.leadingIndent) (v : Value T) (hp : Printable u v) :
    ∃ s, b.toString u v = some s ∧
      ∀ rest, PlainFollow s rest → NotAlnumCont rest → parse u [parseHex] (s ++ rest) = some (.ok v.removeContext, rest) := by
  let o : FmtOpts T := ⟨b.style, b.indentBy, b.leadingIndent, [hexFmt], none⟩
  have hb : b = o.builder stringWriter := by
    obtain ⟨wr, st, cf, ind, lead, pc⟩ := b
    simp only at hw hf hc
    subst hw; subst hf; subst hc
    simp only [FmtOpts.builder, o, formatHex_eq, List.map_cons, List.map_nil, Option.map_none]
    rfl
  have hok := cust_ok (u := u) (C := o.cfg) rfl (by
    intro v t h
    simp only [FmtOpts.cfg] at h
    cases hh : o.formatters.findSome? (· v) with
    | none => simp [hh] at h
    | some ws => simp [hh] at h; subst h; rfl) v hp.no256 b.style
  refine ⟨(trValue u o.cfg v b.style).txt, ?_, ?_⟩
  · rw [hb, Builder.toString, o.write_eq, runTr_string]
    have : (o.builder stringWriter).style = b.style := rfl
    simp only [this, show o.style = b.style from rfl, hok, List.nil_append, Tr.txt]
  · intro rest h1 h2
    refine parse_complete hex_implements.chars (value_text (C := o.cfg) hi hl rfl ?_ v hp b.style hok) ⟨h1, h2⟩
    intro v t h hp' hok'
    simp only [FmtOpts.cfg, o, List.findSome?_cons, List.findSome?_nil] at h
    by_cases hb : ∃ bs, bs ≠ [] ∧ IsBytes bs v
    · have e : hexFmt v = some (hexWrites hb.choose) := by simp [hexFmt, hb]
      simp only [e, Option.map_some, Option.some.injEq] at h
      subst h
      refine ⟨hb.choose, upperHex hb.choose, isBytes_removeContext hb.choose_spec.2, ?_, upperHex_text _⟩
      have : ∀ l : Str, (List.map (fun c => [c]) l).flatten = l := by
        intro l; induction l with
        | nil => rfl
        | cons c l ih => simp [ih]
      simp only [Tr.txt, hexWrites, List.flatten_cons, this]
      rfl
    · have e : hexFmt v = none := by simp [hexFmt, hb]
      simp [e] at h

/-- A byte string inside of a struct, next to an empty composite, for the example below. -/
def exHex : Value Nat :=
  .mk (.composite (.named [("a".toList, .mk (.composite (.unnamed [.mk (.primitive (.u128 ⟨10, by decide⟩)) 1,
      .mk (.primitive (.u128 ⟨255, by decide⟩)) 2])) 3),
    ("b".toList, .mk (.composite (.unnamed [])) 4)])) 5

example : IsBytes [10, 255] (.mk (.composite (.unnamed [.mk (.primitive (.u128 ⟨10, by decide⟩)) 1,
    .mk (.primitive (.u128 ⟨255, by decide⟩)) 2])) 3 : Value Nat) := ⟨rfl⟩

example : ((Builder.new stringWriter).compact.addCustomFormatter (formatHex stringWriter)).toString Uni.ascii exHex =
    some "{a:0x0AFF,b:()}".toList := by decide +kernel

example : ∃ s, ((Builder.new stringWriter).compact.addCustomFormatter (formatHex stringWriter)).toString Uni.ascii exHex = some s ∧
    ∀ rest, PlainFollow s rest → NotAlnumCont rest → parse Uni.ascii [parseHex] (s ++ rest) = some (.ok exHex.removeContext, rest) := by
  refine C22_nested_round_trip _ rfl rfl rfl ?_ ws_nil exHex ?_
  · intro c hc; simp [Builder.addCustomFormatter, Builder.compact, Builder.new] at hc; subst hc; exact ws_space
  · refine .named ?_
    intro p hp
    simp at hp
    rcases hp with rfl | rfl
    · refine .unnamed ?_
      intro v hv
      simp at hv
      rcases hv with rfl | rfl <;> exact .prim trivial
    · exact .unnamed (by intro v hv; cases hv)

end SV
