import Verif.Proofs.Asks
/-
C76: what happens while a value is written, and in which order.
-/
namespace SV

variable {T W : Type}

/-- Recording changes nothing. Whatever the writer, the formatters and the printer of contexts do: if a value is written, who was asked is as in `Asks`; if not, it is a
beginning of that. -/
theorem C76_asks (u : Uni) (b : Builder T W) (v : Value T) (w : W) : ∃ l,
    b.recording.write u v (w, []) = ((b.write u v w).1, ((b.write u v w).2, l)) ∧
    ((b.write u v w).1 = true → Asks b.customFormatters.length b.printContext.isSome v (l.filter Asked.user)) ∧
    ∃ more, Asks b.customFormatters.length b.printContext.isSome v (l.filter Asked.user ++ more) := by
  obtain ⟨m, h1, h2, h3, -⟩ := rec_value u b v w [] b.style
  refine ⟨m, ?_, h2, h3⟩
  unfold Builder.write
  rw [show b.recording.style = b.style from rfl, h1]
  rfl

/-- Errors: nothing happens after one, and it is returned. There is no other reason to fail than a 256 bit number. -/
theorem C76_errors (u : Uni) (b : Builder T W) (v : Value T) (w w' : W) (ok : Bool) (l : List (Asked T)) (h : b.recording.write u v (w, []) = (ok, (w', l))) :
    (∀ x ∈ l.dropLast, x.failed = false) ∧ (∀ x ∈ l.getLast?, x.failed = true → ok = false) ∧
    (ok = false → (∃ x ∈ l.getLast?, x.failed = true) ∨ Has256 v) := by
  obtain ⟨m, h1, -, -, h4, h5, h6⟩ := rec_value u b v w [] b.style
  unfold Builder.write at h
  rw [show b.recording.style = b.style from rfl, h1] at h
  simp only [List.nil_append, Prod.mk.injEq] at h
  obtain ⟨rfl, rfl, rfl⟩ := h
  refine ⟨h5, fun x hx hf => ?_, h6⟩
  by_cases hk : (fmtValue u b v ⟨w, b.style⟩).1 = true
  · have := h4 hk x (List.mem_of_getLast? hx)
    rw [hf] at this
    cases this
  · simpa using hk

/-- Each value is asked about at most once by each: a printer of contexts once for each of the values, and each of `n` formatters. -/
theorem C76_bound (u : Uni) (b : Builder T W) (v : Value T) (w : W) :
    ((b.recording.write u v (w, [])).2.2.filter Asked.user).length ≤ (b.customFormatters.length + b.printContext.isSome.toNat) * v.count := by
  obtain ⟨l, h1, -, more, h3⟩ := C76_asks u b v w
  rw [h1]
  have := asks_length h3
  rw [List.length_append] at this
  dsimp only
  omega

/-- When no formatter takes anything, every value in the value is asked about, in the order in which they are written: first its context, then the formatters in the order in which they
were added. -/
theorem C76_preorder (u : Uni) (b : Builder T W) (v : Value T) (w w' : W) (l : List (Asked T)) (h : b.recording.write u v (w, []) = (true, (w', l)))
    (hn : ∀ i x r, Asked.fmt i x (some r) ∉ l) : l.filter Asked.user = v.preorder.flatMap (askedOf b.customFormatters.length b.printContext.isSome) := by
  have he := C76_errors u b v w w' true l h
  obtain ⟨m, h1, h2, -⟩ := C76_asks u b v w
  rw [h] at h1
  simp only [Prod.mk.injEq] at h1
  obtain ⟨hok, -, rfl⟩ := h1
  refine asks_left (h2 hok.symm) ⟨fun x hx => ?_, fun i x r hx => hn i x r (List.mem_filter.1 hx).1⟩
  have hx := (List.mem_filter.1 hx).1
  rcases List.eq_nil_or_concat l with hl | ⟨l', y, hl⟩
  · rw [hl] at hx; cases hx
  · have hl : l = l' ++ [y] := by simpa using hl
    rw [hl, List.dropLast_concat, List.getLast?_concat] at he
    rw [hl] at hx
    rcases List.mem_append.1 hx with hx | hx
    · exact he.1 x hx
    · have := he.2.1 y rfl
      rw [List.mem_singleton.1 hx]
      cases hf : y.failed with
      | false => rfl
      | true => cases this hf

/-- What is inside of a value that a formatter takes is not asked about: that formatter is the last that is asked. -/
theorem C76_taken (u : Uni) (b : Builder T W) (v : Value T) (w w' : W) (ok : Bool) (l : List (Asked T)) (h : b.recording.write u v (w, []) = (ok, (w', l))) (i : Nat) (r : Bool)
    (hm : Asked.fmt i v (some r) ∈ l) : (l.filter Asked.user).getLast? = some (.fmt i v (some r)) := by
  obtain ⟨m, h1, -, more, h2⟩ := C76_asks u b v w
  rw [h] at h1
  simp only [Prod.mk.injEq] at h1
  obtain ⟨-, -, rfl⟩ := h1
  have hm : Asked.fmt i v (some r) ∈ l.filter Asked.user := List.mem_filter.2 ⟨hm, rfl⟩
  generalize l.filter Asked.user = l at h2 hm
  obtain ⟨x, h3, h4⟩ := asks_taken h2 (List.mem_append_left more hm)
  -- it is the last of `l ++ more`, and only once in it
  rcases List.eq_nil_or_concat more with rfl | ⟨more', z, rfl⟩
  · rw [List.append_nil] at h3
    rw [h3, List.getLast?_concat]
  · exfalso
    have e : l ++ more' = x := by
      have : (l ++ more') ++ [z] = x ++ [.fmt i v (some r)] := by rw [← h3]; simp
      exact (List.append_inj' this rfl).1
    exact h4 (e ▸ List.mem_append_left more' hm)

section Examples

/-- A formatter for strings, and one that fails for bit sequences. -/
def exAskBuilder : Builder Nat Str :=
  (((Builder.new stringWriter).formatContext (fun c w => (true, w ++ decDigits 39 c))).addCustomFormatter
    (fun v w => match v with
      | .mk (.primitive (.string _)) _ => (some true, w ++ ['s'])
      | _ => (none, w))).addCustomFormatter
    (fun v w => match v with
      | .mk (.bitSequence _) _ => (some false, w)
      | _ => (none, w))

/-- A value. -/
def exAskValue : Value Nat := .mk (.composite (.unnamed [.mk (.primitive (.string ['x'])) 1, .mk (.primitive (.bool true)) 2])) 0

/-- The indexes and contexts of what was asked. -/
def askedShort (l : List (Asked Nat)) : List (Option Nat × Nat) := l.filterMap (fun x => match x with
  | .wr _ _ => none
  | .ctx c _ => some (none, c)
  | .fmt i v _ => some (some i, v.context))

example : (exAskBuilder.write .ascii exAskValue []).2 = "<0> (<1> s, <2> true)".toList := by decide +kernel
example : askedShort (exAskBuilder.recording.write .ascii exAskValue ([], [])).2.2 =
    [(none, 0), (some 0, 0), (some 1, 0), (none, 1), (some 0, 1), (none, 2), (some 0, 2), (some 1, 2)] := by decide +kernel
example : (exAskBuilder.recording.write .ascii (.mk (.composite (.unnamed [.mk (.bitSequence []) 1, .mk (.primitive (.bool true)) 2])) 0) ([], [])).1 = false := by decide +kernel
example : askedShort (exAskBuilder.recording.write .ascii (.mk (.composite (.unnamed [.mk (.bitSequence []) 1, .mk (.primitive (.bool true)) 2])) 0) ([], [])).2.2 =
    [(none, 0), (some 0, 0), (some 1, 0), (none, 1), (some 0, 1), (some 1, 1)] := by decide +kernel
example : exAskValue.preorder.map Value.context = [0, 1, 2] := by decide +kernel

end Examples

end SV
