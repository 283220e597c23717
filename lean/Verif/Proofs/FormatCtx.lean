import Verif.Model.Format
import Verif.Proofs.Value
/-
Printing without contexts does not depend on contexts.
-/
namespace SV

variable {T U W S : Type}

/-- Two builders for different contexts that agree in all but custom formatters, and do not print contexts. -/
structure SameOut (b : Builder T W) (b' : Builder U W) : Prop where
  wr : b'.wr = b.wr
  style : b'.style = b.style
  indentBy : b'.indentBy = b.indentBy
  leadingIndent : b'.leadingIndent = b.leadingIndent
  context : b.printContext = none
  context' : b'.printContext = none

section
variable {b : Builder T W} {b' : Builder U W}

theorem SameOut.writeStr (h : SameOut b b') (s : Str) : writeStr b' s = SV.writeStr b s := by unfold SV.writeStr; rw [h.wr]

theorem SameOut.writeIndents (h : SameOut b b') (n : Nat) : writeIndents b' n = SV.writeIndents b n := by
  induction n with
  | zero => rfl
  | succ n ih => rw [SV.writeIndents, SV.writeIndents, h.writeStr, h.indentBy, ih]

theorem SameOut.writeNewline (h : SameOut b b') (n : Nat) : writeNewline b' n = SV.writeNewline b n := by
  unfold SV.writeNewline; simp only [h.writeStr, h.leadingIndent, h.writeIndents]

theorem SameOut.space (h : SameOut b b') : space b' = SV.space b := by funext f; unfold SV.space; rw [h.writeStr]
theorem SameOut.newline (h : SameOut b b') : newline b' = SV.newline b := by funext f; unfold SV.newline; simp only [h.writeNewline]
theorem SameOut.itemSeparator (h : SameOut b b') : itemSeparator b' = SV.itemSeparator b := by
  funext f; unfold SV.itemSeparator; simp only [h.writeNewline, h.writeStr]

theorem SameOut.writeChars (h : SameOut b b') (s : Str) : writeChars b' s = SV.writeChars b s := by
  induction s with
  | nil => rfl
  | cons c s ih => rw [SV.writeChars, SV.writeChars, ih]; unfold writeEscaped; simp only [h.writeStr]

theorem SameOut.writeBits (h : SameOut b b') (s : List Bool) : writeBits b' s = SV.writeBits b s := by
  induction s with
  | nil => rfl
  | cons c s ih => cases c <;> rw [SV.writeBits, SV.writeBits, ih, h.writeStr]

theorem SameOut.fmtString (h : SameOut b b') (s : Str) : fmtString b' s = SV.fmtString b s := by
  unfold SV.fmtString; simp only [h.writeStr, h.writeChars]

theorem SameOut.fmtChar (h : SameOut b b') (c : Char) : fmtChar b' c = SV.fmtChar b c := by
  unfold SV.fmtChar writeEscaped; simp only [h.writeStr]

theorem SameOut.fmtBits (h : SameOut b b') (s : List Bool) : fmtBitSequence b' s = fmtBitSequence b s := by
  unfold fmtBitSequence; simp only [h.writeStr, h.writeBits]

theorem SameOut.fmtPrimitive (h : SameOut b b') (p : Primitive) : fmtPrimitive b' p = SV.fmtPrimitive b p := by
  cases p with
  | bool x => cases x <;> rw [SV.fmtPrimitive, SV.fmtPrimitive, h.writeStr]
  | char c => rw [SV.fmtPrimitive, SV.fmtPrimitive, h.fmtChar]
  | string s => rw [SV.fmtPrimitive, SV.fmtPrimitive, h.fmtString]
  | u128 n => rw [SV.fmtPrimitive, SV.fmtPrimitive]; unfold writeU128; rw [h.writeStr]
  | i128 n => rw [SV.fmtPrimitive, SV.fmtPrimitive]; unfold writeI128; simp only [h.writeStr]
  | u256 n => rfl
  | i256 n => rfl
end

variable {u : Uni} {b : Builder T W} {b' : Builder U W} {f : S → T → U × S}

mutual
theorem fmt_mapContext (h : SameOut b b') (hc : ∀ s v w, runFormatters b'.customFormatters (v.mapContextS f s) w = runFormatters b.customFormatters v w) :
    ∀ (v : Value T) (s : S), fmtValue u b' (v.mapContextS f s) = fmtValue u b v
  | .mk d c, s => by
    have h1 := hc s (.mk d c)
    rw [Value.mapContextS] at h1
    rw [Value.mapContextS, fmtValue, fmtValue, fmt_mapContext_def h hc d]
    unfold fmtContext
    rw [h.context, h.context']
    simp only [h1]
theorem fmt_mapContext_def (h : SameOut b b') (hc : ∀ s v w, runFormatters b'.customFormatters (v.mapContextS f s) w = runFormatters b.customFormatters v w) :
    ∀ (v : ValueDef T) (s : S), fmtValueDef u b' (v.mapContextS f s) = fmtValueDef u b v
  | .composite c, s => by rw [ValueDef.mapContextS, fmtValueDef, fmtValueDef, fmt_mapContext_comp h hc c]
  | .variant c, s => by rw [ValueDef.mapContextS, fmtValueDef, fmtValueDef, fmt_mapContext_var h hc c]
  | .primitive c, s => by rw [ValueDef.mapContextS, fmtValueDef, fmtValueDef, h.fmtPrimitive]
  | .bitSequence c, s => by rw [ValueDef.mapContextS, fmtValueDef, fmtValueDef, h.fmtBits]
theorem fmt_mapContext_var (h : SameOut b b') (hc : ∀ s v w, runFormatters b'.customFormatters (v.mapContextS f s) w = runFormatters b.customFormatters v w) :
    ∀ (v : Variant T) (s : S), fmtVariant u b' (v.mapContextS f s) = fmtVariant u b v
  | .mk n c, s => by rw [Variant.mapContextS, fmtVariant, fmtVariant, fmt_mapContext_comp h hc c, h.writeStr, h.writeStr, h.fmtString, h.space]
theorem fmt_mapContext_comp (h : SameOut b b') (hc : ∀ s v w, runFormatters b'.customFormatters (v.mapContextS f s) w = runFormatters b.customFormatters v w) :
    ∀ (v : Composite T) (s : S), fmtComposite u b' (v.mapContextS f s) = fmtComposite u b v
  | .named fs, s => by
    rw [Composite.mapContextS, fmtComposite, fmtComposite, fmt_mapContext_fields h hc fs]
    simp only [h.writeStr, h.itemSeparator]
    cases fs with
    | nil => rfl
    | cons p fs => obtain ⟨k, v⟩ := p; rfl
  | .unnamed vs, s => by
    rw [Composite.mapContextS, fmtComposite, fmtComposite, fmt_mapContext_vals h hc vs]
    simp only [h.writeStr, h.newline]
    cases vs with
    | nil => rfl
    | cons p fs => rfl
theorem fmt_mapContext_fields (h : SameOut b b') (hc : ∀ s v w, runFormatters b'.customFormatters (v.mapContextS f s) w = runFormatters b.customFormatters v w) :
    ∀ (v : List (Str × Value T)) (s : S) (i : Nat), fmtFields u b' i (mapFieldsS f v s) = fmtFields u b i v
  | [], s, i => by rw [mapFieldsS, fmtFields, fmtFields]
  | (k, v) :: r, s, i => by
    rw [mapFieldsS, fmtFields, fmtFields, fmt_mapContext h hc v, fmt_mapContext_fields h hc r]
    simp only [h.writeStr, h.itemSeparator, h.space, h.fmtString]
theorem fmt_mapContext_vals (h : SameOut b b') (hc : ∀ s v w, runFormatters b'.customFormatters (v.mapContextS f s) w = runFormatters b.customFormatters v w) :
    ∀ (v : List (Value T)) (s : S) (i : Nat), fmtVals u b' i (mapValsS f v s) = fmtVals u b i v
  | [], s, i => by rw [mapValsS, fmtVals, fmtVals]
  | v :: r, s, i => by
    rw [mapValsS, fmtVals, fmtVals, fmt_mapContext h hc v, fmt_mapContext_vals h hc r]
    simp only [h.writeStr, h.itemSeparator]
end

theorem sameOut_default (wr : Writer W) (alt : Bool) : SameOut (defaultBuilder (T := T) wr alt) (defaultBuilder (T := U) wr alt) := by
  unfold defaultBuilder
  cases alt <;> exact ⟨rfl, rfl, rfl, rfl, rfl, rfl⟩

theorem display_mapContext (wr : Writer W) (alt : Bool) (v : Value T) (s : S) : (v.mapContextS f s).display u wr alt = v.display u wr alt := by
  obtain ⟨d, c⟩ := v
  funext w
  rw [Value.mapContextS, Value.display, Value.display, fmt_mapContext_def (sameOut_default wr alt), (sameOut_default wr alt).style]
  intro s v w
  unfold defaultBuilder
  cases alt <;> rfl

end SV
