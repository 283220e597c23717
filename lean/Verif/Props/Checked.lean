import Verif.Proofs.Checked
import Verif.Props.ParseErr
import Verif.Props.Parse
import Verif.Props.ParseCalls
/-
C94: nothing panics in slices, arithmetic and `expect`.
-/
namespace SV

variable {T W Id Γ : Type}

/-- C94: `parse_hex` never panics, and does what C21 says: for all texts that fit in memory. -/
theorem C94_parse_hex (w : Nat) (s : Str) (hs : utf8Len s < 2 ^ w) : parseHexC w s = some (parseHex s) := parseHexC_eq w s hs

/-- C94: `parse_ss58` never panics, whatever the libraries return, and does what C24 says. -/
theorem C94_parse_ss58 (w : Nat) (h : 3 ≤ w) (u : Uni) (lib : Ss58Lib) (s : Str) : parseSs58BytesC w u lib s = some (parseSs58Bytes u lib s) := parseSs58C_eq w h u lib s

/-- C94: `format_hex` never panics, and does what C22 says. -/
theorem C94_format_hex (wr : Writer W) (v : Value T) (w : W) : formatHexC wr v w = some (formatHex wr v w) := formatHexC_eq wr v w

/-- C94: decoding composites never panics for a field without a name, and does what C25-C40 say: it panics only for want of memory. -/
theorem C94_decode_composite (al : Nat → Bool) (dec : Id → List UInt8 → Option (Out DErr (Value Γ × List UInt8))) (fs : List (Field Id)) (bs : List UInt8) :
    decCompositeC al dec fs bs = decComposite al dec fs bs := decCompositeC_eq al dec fs bs

/-- C94: looking through wrappers never panics. -/
theorem C94_single_entry (res : Table Id) (n : Nat) (t : Id) (b : Bool) : findSingleCN res n t b = (findSingleTN res n t b).map .ok := findSingleC_eq res n t b

/-- C94: `deserialize_option` never panics. -/
theorem C94_option (v : Variant T) : v.askOptionC = some v.askOption := askOptionC_eq v

/-- C94: moving the locations of a custom parser's error panics exactly if one of the sums is not a `usize`; otherwise they are the locations in the whole text (C14). -/
theorem C94_custom_error (w : Nat) (off : Nat) (e : ParseError) :
    (moveErrorC w off e = none ↔ 2 ^ w ≤ off + e.startLoc ∨ ∃ l, e.endLoc = some l ∧ 2 ^ w ≤ off + l) ∧
    ∀ e', moveErrorC w off e = some e' → e' = ⟨off + e.startLoc, e.endLoc.map (off + ·), e.err⟩ := moveErrorC_iff w off e

/-- C94: with errors within the text that the custom parser was given there is no panic. -/
theorem C94_custom_error_within (w : Nat) (t : Toks) (e : ParseError) (h : t.off + utf8Len t.rest < 2 ^ w) (hs : e.startLoc ≤ utf8Len t.rest)
    (he : ∀ l, e.endLoc = some l → l ≤ utf8Len t.rest) : moveErrorC w t.off e = some ⟨t.off + e.startLoc, e.endLoc.map (t.off + ·), e.err⟩ := by
  cases h' : moveErrorC w t.off e with
  | some e' => rw [(C94_custom_error w t.off e).2 e' h']
  | none =>
    rcases (C94_custom_error w t.off e).1.1 h' with h1 | ⟨l, hl, h1⟩
    · omega
    · have := he l hl; omega

/-- C94: the locations of the parser's own errors are sums of at most one more than the length of the text. -/
theorem C94_locations {u : Uni} (s rest : Str) (e : ParseError) (h : fromStr u s = some (.error e, rest)) :
    e.startLoc ≤ utf8Len s ∧ ∀ l, e.endLoc = some l → l ≤ utf8Len s + 1 := by
  obtain ⟨⟨pre, r, rfl, hs⟩, -⟩ := C10_error_location_from_str s rest e h
  have h1 : e.startLoc ≤ utf8Len (pre ++ r) := by rw [hs, utf8Len_append]; omega
  refine ⟨h1, fun l hl => ?_⟩
  rcases C10_end _ _ _ h with ⟨-, h2⟩ | ⟨-, p, x, r', hp, -, h2⟩ | ⟨-, -, -, h2⟩
  · rw [hl] at h2; cases h2
  · rw [hl] at h2; cases h2
    have := congrArg utf8Len hp
    simp only [utf8Len_append] at this ⊢; omega
  · rw [hl] at h2; cases h2; omega

/-- Wherever in the text a custom parser answers with an error (the texts it is asked about are those of C63), that error is the outcome, with its locations moved by the bytes that come before. -/
theorem C94_custom_error_ends {u : Uni} (cps : List CustomParser) (s x c : Str) (e : ParseError) (hx : x ∈ asks u cps s) (h : runCustom cps x = (some (.error e), c)) :
    ∃ r, parse u cps s = some (.error ⟨utf8Len s - utf8Len x + e.startLoc, e.endLoc.map (utf8Len s - utf8Len x + ·), e.err⟩, r) := by
  obtain ⟨t', h1⟩ := hits_value (u := u) (cps := cps) h (fun _ _ => rfl) (s.length + 1) (Toks.new s) (N := utf8Len s) (by simp [Whole, Toks.new]) hx
  exact ⟨t'.rest, by unfold parse; rw [h1]⟩

/-- `from_str` (with custom parsers) comes to an error of a custom parser for which moving the locations panics. -/
def ParsePanics (u : Uni) (w : Nat) (cps : List CustomParser) (s : Str) : Prop :=
  ∃ x ∈ asks u cps s, ∃ e c, runCustom cps x = (some (.error e), c) ∧ moveErrorC w (utf8Len s - utf8Len x) e = none

/-- C94: it does exactly if a custom parser errs and one of the locations, in the whole text, does not fit in `usize`. -/
theorem C94_parse_panics (u : Uni) (w : Nat) (cps : List CustomParser) (s : Str) :
    ParsePanics u w cps s ↔ (∃ x ∈ asks u cps s, ∃ e c, runCustom cps x = (some (.error e), c)) ∧
      ∃ e r, parse u cps s = some (.error e, r) ∧ (2 ^ w ≤ e.startLoc ∨ ∃ l, e.endLoc = some l ∧ 2 ^ w ≤ l) := by
  constructor
  · rintro ⟨x, hx, e, c, h, hm⟩
    obtain ⟨r, hr⟩ := C94_custom_error_ends cps s x c e hx h
    refine ⟨⟨x, hx, e, c, h⟩, _, r, hr, ?_⟩
    rcases (C94_custom_error w _ e).1.1 hm with h1 | ⟨l, hl, h1⟩
    · exact .inl h1
    · exact .inr ⟨_, by rw [hl]; rfl, h1⟩
  · rintro ⟨⟨x, hx, e, c, h⟩, e', r', hp, hl⟩
    obtain ⟨r, hr⟩ := C94_custom_error_ends cps s x c e hx h
    rw [hr] at hp
    cases hp
    refine ⟨x, hx, e, c, h, (C94_custom_error w _ e).1.2 ?_⟩
    rcases hl with h1 | ⟨l, hl, h1⟩
    · exact .inl h1
    · cases he : e.endLoc with
      | none => simp only [he, Option.map_none] at hl; cases hl
      | some l' => simp only [he, Option.map_some, Option.some.injEq] at hl; exact .inr ⟨l', rfl, by omega⟩

/-! ### Concrete cases -/

example : ckAdd8 250 10 = none := rfl
example : ckSub8 1 2 = none := rfl
example : ckMul8 16 16 = none := rfl
example : takeBytes 1 "é".toList = none := by simp [takeBytes]; decide
example : ckSlice [1, 2, 3] 1 4 = none := rfl
example : u4ToHexC 16 = none := rfl
/-- An error at the largest location, after one byte. -/
example : moveErrorC 64 1 (ParseErrorKind.expectedValue.at (2 ^ 64 - 1)) = none := rfl
/-- So `(true,x)` with a parser that errs at its second value with the largest location panics. -/
example : ParsePanics Uni.ascii 64 [fun s => if s = ['x', ')'] then (some (.error (ParseErrorKind.expectedValue.at (2 ^ 64 - 1))), s) else (none, s)] "(true,x)".toList :=
  ⟨['x', ')'], by decide, _, _, rfl, rfl⟩
/-- The loop with a variable `name` that is not there would panic. -/
example : namedLoopC (Γ := Unit) (fun (_ : Nat) bs => some (.ok (.u128 ⟨0, by decide⟩, bs))) [⟨none, 0⟩] none [] = some .panic := rfl

end SV
