import Verif.Proofs.ParseCalls
/-
C63: the parser goes through the text once.
-/
namespace SV

variable {u : Uni}

/-- A custom parser that answers the text `x` with the error `e`, and declines all others. -/
def trap (x : Str) (e : ParseError) : CustomParser := fun y => if y = x then (some (.error e), y) else (none, y)

/-- A value is asked for first of the whole text, and then only ever in shorter and shorter rests of it; so not twice at the same place, and never at an
earlier place (there is no going back), and not more often than there are characters (and one more time). -/
theorem C63_once (cps : List CustomParser) (s : Str) :
    (asks u cps s).head? = some s ∧ (∀ x ∈ asks u cps s, x <:+ s) ∧ (asks u cps s).Pairwise (fun a b => b.length < a.length) ∧
    (asks u cps s).length ≤ s.length + 1 := by
  obtain ⟨h, -⟩ := walks_value (u := u) cps (s.length + 1) (Toks.new s)
  refine ⟨rfl, fun x hx => (h.2 x hx).1, h.1, ?_⟩
  have key : ∀ (l : List Str) n, l.Pairwise (fun a b => b.length < a.length) → (∀ a ∈ l, a.length < n) → l.length ≤ n := by
    intro l
    induction l with
    | nil => intro n _ _; simp
    | cons a l ih =>
      intro n h1 h2
      rw [List.pairwise_cons] at h1
      have := ih a.length h1.2 h1.1
      have := h2 a List.mem_cons_self
      simp only [List.length_cons]
      omega
  exact key _ _ h.1 (fun a ha => (h.2 a ha).2.2)

/-- Nothing else is asked for: custom parsers that (together) answer these texts alike give the same result, whatever they would answer to other texts. -/
theorem C63_nowhere_else (cps cps' : List CustomParser) (s : Str) (h : ∀ x ∈ asks u cps s, runCustom cps' x = runCustom cps x) :
    parse u cps' s = parse u cps s ∧ asks u cps' s = asks u cps s := by
  obtain ⟨h1, h2⟩ := agree_value (u := u) (G := fun x => runCustom cps' x = runCustom cps x) (fun x hx => hx) (s.length + 1) (Toks.new s) h
  exact ⟨by unfold parse; rw [h1], h2⟩

/-- Each of the texts is really asked for: if a further custom parser answers one of them with an error, that is the outcome, at the place of that text;
and for all other texts such a parser makes no difference. -/
theorem C63_everywhere (cps : List CustomParser) (s x : Str) (e : ParseError) :
    (x ∈ asks u cps s → ∃ r, parse u (trap x e :: cps) s = some (.error
      ⟨utf8Len s - utf8Len x + e.startLoc, e.endLoc.map (fun l => utf8Len s - utf8Len x + l), e.err⟩, r)) ∧
    (x ∉ asks u cps s → parse u (trap x e :: cps) s = parse u cps s) := by
  have hne : ∀ y, y ≠ x → runCustom (trap x e :: cps) y = runCustom cps y := by
    intro y hy
    simp [runCustom, trap, hy]
  constructor
  · intro h
    have hx : runCustom (trap x e :: cps) x = (some (.error e), x) := by simp [runCustom, trap]
    obtain ⟨t', h1⟩ := hits_value (u := u) hx hne (s.length + 1) (Toks.new s) (N := utf8Len s) (by simp [Whole, Toks.new]) h
    exact ⟨t'.rest, by unfold parse; rw [h1]⟩
  · intro h
    exact (C63_nowhere_else cps _ s (fun y hy => hne y (fun e => h (e ▸ hy)))).1

/-- No work is wasted: a text that is read as a value is asked for a value exactly as often as there are values in it. -/
theorem C63_no_waste (s r : Str) (v : Value Unit) (h : fromStr u s = some (.ok v, r)) : (asks u [] s).length = v.count := by
  unfold fromStr parse at h
  revert h
  rcases hp : parseValueN u [] (s.length + 1) (Toks.new s) with _ | ⟨x, t⟩
  · intro h; cases h
  · intro h
    cases h
    exact count_value _ _ _ _ hp

/-- In `Some (1, { a: true })` values are asked for at the start, at `1`, at `{`, and at `true`. -/
example : asks .ascii [] "Some (1, { a: true })".toList =
    ["Some (1, { a: true })".toList, "1, { a: true })".toList, "{ a: true })".toList, "true })".toList] := by decide +kernel

/-- A text with an error has its values asked for up to there. -/
example : asks .ascii [] "(1, [2], 3)".toList = ["(1, [2], 3)".toList, "1, [2], 3)".toList, "[2], 3)".toList] := by decide +kernel

example : (Value.mk (.composite (.unnamed [Value.bool true, Value.bool false])) () : Value Unit).count = 3 := by decide

end SV
