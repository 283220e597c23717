import Verif.Proofs.Express
import Verif.Props.Trip
/-
C71: what texts can say, and what the text of a value says.
-/
namespace SV

variable {T U : Type} {u : Uni}

/-- C71: the values that can be written as a text for `from_str`, in some notation, are exactly those without 256 bit numbers and signed numbers above zero: names may be anything
(`v"true"`), and signed zero is `-0`. Nothing else is ever parsed, whatever follows it. -/
theorem C71_expressible (v : Value Unit) :
    ((∃ s, fromStr u s = some (.ok v, [])) ↔ Expressible v) ∧ ((∃ s r, fromStr u s = some (.ok v, r)) ↔ Expressible v) := by
  have h1 : Expressible v → ∃ s, fromStr u s = some (.ok v, []) := by
    intro h
    obtain ⟨s, hs⟩ := expressible_text (u := u) v h
    exact ⟨s, fromStr_iff.2 ⟨s, hs, by simp, fun _ => trivial⟩⟩
  have h2 : (∃ s r, fromStr u s = some (.ok v, r)) → Expressible v := by
    rintro ⟨s, r, h⟩
    obtain ⟨x, hx, -, -⟩ := fromStr_iff.1 h
    exact txt_sayable hx
  exact ⟨⟨fun ⟨s, h⟩ => h2 ⟨s, [], h⟩, h1⟩, ⟨h2, fun h => by obtain ⟨s, hs⟩ := h1 h; exact ⟨s, [], hs⟩⟩⟩

/-- C71: whatever was parsed can be written again, in any style. -/
theorem C71_parsed_can_be_written (s r : Str) (v : Value Unit) (h : fromStr u s = some (.ok v, r)) (st : Style) (ib li : Str) :
    (∃ t, (Builder.mk stringWriter st [] ib li none).toString u v = some t) ∧ ∀ alt, ∃ t, v.toString u alt = some t := by
  have hv : ¬ Has256 v := expressible_no256 ((C71_expressible v).2.1 ⟨s, r, h⟩)
  refine ⟨?_, fun alt => (C07_display alt v).2 hv⟩
  have := (C07_fails_only_for_256 (u := u) (Builder.mk stringWriter st [] ib li none) rfl rfl (fun _ _ => rfl) v []).2 hv
  unfold Builder.toString
  revert this
  cases (Builder.mk stringWriter st [] ib li none).write u v [] with
  | mk ok t => intro h; cases h; exact ⟨t, rfl⟩

/-- C71: two values have the same text, in one style, exactly if they have the same data: the same but for contexts and for whether numbers are signed or unsigned. -/
theorem C71_same_text_iff_same_data (st : Style) (ib li : Str) (hi : Ws u ib) (hl : Ws u li) (v : Value T) (w : Value U) (hv : Textual u v) (hw : Textual u w) :
    (Builder.mk stringWriter st [] ib li none : Builder T Str).toString u v = (Builder.mk stringWriter st [] ib li none : Builder U Str).toString u w ↔ SameData v w := by
  constructor
  · intro h
    obtain ⟨s, v', h1, h2, h3⟩ := C57_text (u := u) (Builder.mk stringWriter st [] ib li none) rfl rfl rfl hi hl v hv
    obtain ⟨t, w', h4, h5, h6⟩ := C57_text (u := u) (Builder.mk stringWriter st [] ib li none) rfl rfl rfl hi hl w hw
    have hst : s = t := Option.some.inj (h1.symm.trans (h.trans h4))
    subst hst
    have := (h3 [] (fun _ => trivial)).symm.trans (h6 [] (fun _ => trivial))
    simp only [Option.some.injEq, Prod.mk.injEq, Except.ok.injEq, and_true] at this
    subst this
    exact h2.trans h5.symm
  · exact fun h => h.text st ib li

/-- C71: the text of a value (parsed or not, with variants as in C57) is a normal form: it is parsed completely, and what it is parsed to has the same data as
`v` and written as the same text again; and in every other style as `v` is. -/
theorem C71_normal_form (v : Value Unit) (hv : Textual u v) (st : Style) (ib li : Str) (hi : Ws u ib) (hl : Ws u li) :
    ∃ t w, (Builder.mk stringWriter st [] ib li none).toString u v = some t ∧ fromStr u t = some (.ok w, []) ∧ SameData v w ∧
      (Builder.mk stringWriter st [] ib li none).toString u w = some t ∧
      ∀ st' ib' li', (Builder.mk stringWriter st' [] ib' li' none).toString u w = (Builder.mk stringWriter st' [] ib' li' none).toString u v := by
  obtain ⟨t, w, h1, h2, h3⟩ := C57_text (u := u) (Builder.mk stringWriter st [] ib li none) rfl rfl rfl hi hl v hv
  exact ⟨t, w, h1, by simpa using h3 [] (fun _ => trivial), h2, by rw [h2.symm.text]; exact h1, fun st' ib' li' => h2.symm.text st' ib' li'⟩

/-- C71 for `Display`. -/
theorem C71_display_iff_same_data (v : Value T) (w : Value U) (hv : Textual u v) (hw : Textual u w) (alt : Bool) :
    v.toString u alt = w.toString u alt ↔ SameData v w := by
  rw [toString_eq, toString_eq]
  cases alt
  · exact C71_same_text_iff_same_data .normal [' ', ' '] [] (by intro c hc; simp at hc; subst hc; exact ws_space) ws_nil v w hv hw
  · exact C71_same_text_iff_same_data (.pretty 0) [' ', ' '] [] (by intro c hc; simp at hc; subst hc; exact ws_space) ws_nil v w hv hw

/-! ### Cases -/

/-- Signed zero can be said, and a variant with the name of a boolean; a signed one cannot. -/
example : fromStr .ascii "(-0, v\"true\"{})".toList = some (.ok (.unnamedComposite [.i128 ⟨0, by decide, by decide⟩, .variant "true".toList (.named [])]), []) ∧
    ¬ Expressible (Value.i128 ⟨1, by decide, by decide⟩) := by
  refine ⟨rfl, ?_⟩
  intro h
  cases h with
  | prim h => exact absurd h (by simp [Sayable])

/-- Texts of the same data, and of other data. -/
example : SameData (Value.unnamedComposite [.i128 ⟨0, by decide, by decide⟩]) (Value.unnamedComposite [.u128 ⟨0, by decide⟩]) ∧
    ¬ SameData (Value.unnamedComposite [.u128 ⟨1, by decide⟩]) (Value.unnamedComposite [.u128 ⟨0, by decide⟩]) := by
  constructor
  · refine .unnamed rfl ?_
    intro i x y hx hy
    match i with
    | 0 => cases hx; cases hy; exact .number (n := 0) rfl rfl
    | i + 1 => simp at hx
  · intro h
    cases h with
    | number hv _ => cases hv
    | unnamed _ sub =>
      have := sub 0 _ _ rfl rfl
      cases this with
      | number hv hw => simp [Value.number?, Value.u128] at hv hw; omega

end SV
