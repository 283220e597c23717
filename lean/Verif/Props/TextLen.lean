import Verif.Proofs.TextLen
import Verif.Props.Format
import Verif.Props.Size
/-
C89: how long the texts of values are.
-/
namespace SV

variable {Id T : Type} {u : Uni}

/-- C89: a text is at least as long as what is in it: the number of values, the characters of strings and names, and the bits. In any style, with or without contexts. -/
theorem C89_least (o : FmtOpts T) (hf : o.formatters = []) (v : Value T) (s : Str) (h : (o.builder stringWriter).toString u v = some s) :
    v.size + v.nameSize ≤ s.length := shown_least hf ((C17_exact o v s).1 h)

/-- C89: in compact style it is at most 45 times the number of values, characters and bits, plus two for each character of a name. -/
theorem C89_compact (o : FmtOpts T) (hs : o.style = .compact) (hf : o.formatters = []) (hc : o.context = none) (v : Value T) (s : Str)
    (h : (o.builder stringWriter).toString u v = some s) : s.length ≤ 45 * v.size + 2 * v.nameSize := by
  obtain ⟨D, hD⟩ : ∃ D, ∀ n, Deep v n → n ≤ D := ⟨v.size, fun n hn => deep_le_size hn⟩
  have := shown_length hf hc (D := D) (g := 0) (fun d _ => by simp [FmtOpts.gap, hs]) ((C17_exact o v s).1 h) (fun n hn => by have := hD n hn; omega)
  simp only [ShowCat.Bound] at this
  omega

/-- C89: in normal style 48 times. -/
theorem C89_normal (o : FmtOpts T) (hs : o.style = .normal) (hf : o.formatters = []) (hc : o.context = none) (v : Value T) (s : Str)
    (h : (o.builder stringWriter).toString u v = some s) : s.length ≤ 48 * v.size + 2 * v.nameSize := by
  obtain ⟨D, hD⟩ : ∃ D, ∀ n, Deep v n → n ≤ D := ⟨v.size, fun n hn => deep_le_size hn⟩
  have := shown_length hf hc (D := D) (g := 1) (fun d _ => by simp [FmtOpts.gap, hs]) ((C17_exact o v s).1 h) (fun n hn => by have := hD n hn; omega)
  simp only [ShowCat.Bound] at this
  omega

/-- C89: in pretty style, for values nested at most `D` levels below the root, there are up to three line breaks more for each value, and each is followed by the leading indent and
at most `D` indents. -/
theorem C89_pretty (o : FmtOpts T) (n : Nat) (hs : o.style = .pretty n) (hf : o.formatters = []) (hc : o.context = none) (v : Value T) (D : Nat) (hD : ∀ k, Deep v k → k ≤ D + 1) (s : Str)
    (h : (o.builder stringWriter).toString u v = some s) : s.length ≤ (48 + 3 * (o.leadingIndent.length + (n + D) * o.indentBy.length)) * v.size + 2 * v.nameSize := by
  have hr : ∀ k, (rep o.indentBy k).length = k * o.indentBy.length := by
    intro k
    induction k with
    | zero => simp [rep]
    | succ k ih => simp [rep, ih, Nat.succ_mul]; omega
  have := shown_length hf hc (D := D) (g := 1 + (o.leadingIndent.length + (n + D) * o.indentBy.length)) (fun d hd => by
    have : (n + d) * o.indentBy.length ≤ (n + D) * o.indentBy.length := Nat.mul_le_mul_right _ (by omega)
    simp [FmtOpts.gap, hs, hr]; omega) ((C17_exact o v s).1 h) (fun n hn => by have := hD n hn; omega)
  simp only [ShowCat.Bound] at this
  have h2 : 45 + 3 * (1 + (o.leadingIndent.length + (n + D) * o.indentBy.length)) = 48 + 3 * (o.leadingIndent.length + (n + D) * o.indentBy.length) := by omega
  rw [h2] at this
  omega

/-- C89: `to_string` and `{}`. -/
theorem C89_display (v : Value T) (s : Str) (h : v.toString u false = some s) : v.size + v.nameSize ≤ s.length ∧ s.length ≤ 48 * v.size + 2 * v.nameSize := by
  have h := (C17_exact (displayOpts false) v s).2 ((C19_display false v s).1 h)
  exact ⟨C89_least _ rfl v s h, C89_normal _ rfl rfl rfl v s h⟩

/-- C89: `{:#}`. -/
theorem C89_display_pretty (v : Value T) (D : Nat) (hD : ∀ k, Deep v k → k ≤ D + 1) (s : Str) (h : v.toString u true = some s) :
    v.size + v.nameSize ≤ s.length ∧ s.length ≤ (48 + 6 * D) * v.size + 2 * v.nameSize := by
  have h := (C17_exact (displayOpts true) v s).2 ((C19_display true v s).1 h)
  refine ⟨C89_least _ rfl v s h, ?_⟩
  have := C89_pretty _ 0 rfl rfl rfl v D hD s h
  have h2 : 48 + 3 * ((displayOpts (T := T) true).leadingIndent.length + (0 + D) * (displayOpts (T := T) true).indentBy.length) = 48 + 6 * D := by
    show 48 + 3 * (0 + (0 + D) * 2) = _
    omega
  rwa [h2] at this

/-- `n` composites around an empty one. -/
def boxes : Nat → Value Unit
  | 0 => .unnamedComposite []
  | n + 1 => .unnamedComposite [boxes n]

/-- C89: so indents can make a text as long as the square of the number of values: for `n` values inside each other (without any data) it is exactly `2 * n ^ 2` characters, where the plain text has `2 * n`. -/
theorem C89_pretty_square (n : Nat) : (boxes n).size = n + 1 ∧ (∃ s, (boxes n).toString u true = some s ∧ s.length = 2 * (n + 1) ^ 2) ∧ ∃ s, (boxes n).toString u false = some s ∧ s.length = 2 * (n + 1) := by
  refine ⟨?_, ?_, ?_⟩
  · induction n with
    | zero => rfl
    | succ n ih => simp [boxes, Value.unnamedComposite, Composite.mkUnnamed, Value.size, valuesSize, ih]; omega
  · have : ∀ n k, ∃ s, Shown u (displayOpts true) k (.val (boxes n)) s ∧ s.length = 2 * (n + 1) ^ 2 + 4 * k * n := by
      intro n
      induction n with
      | zero => intro k; exact ⟨_, .default rfl (.composite .unnamedEmpty), rfl⟩
      | succ n ih =>
        intro k
        obtain ⟨s, h1, h2⟩ := ih (k + 1)
        refine ⟨_, .default rfl (.composite (.unnamed (.val1 h1))), ?_⟩
        have hr : ∀ k, (rep "  ".toList k).length = k * 2 := by
          intro k
          induction k with
          | zero => simp [rep]
          | succ k ih => rw [rep, List.length_append, ih]; show 2 + k * 2 = _; omega
        simp only [FmtOpts.before, FmtOpts.line, displayOpts, if_true, List.length_append, List.length_cons, List.length_nil, hr, h2]
        ring
    obtain ⟨s, h1, h2⟩ := this n 0
    exact ⟨s, (C19_display true _ s).2 h1, by simpa using h2⟩
  · have : ∀ n k, ∃ s, Shown u (displayOpts false) k (.val (boxes n)) s ∧ s.length = 2 * (n + 1) := by
      intro n
      induction n with
      | zero => intro k; exact ⟨_, .default rfl (.composite .unnamedEmpty), rfl⟩
      | succ n ih =>
        intro k
        obtain ⟨s, h1, h2⟩ := ih (k + 1)
        refine ⟨_, .default rfl (.composite (.unnamed (.val1 h1))), ?_⟩
        simp [FmtOpts.before, FmtOpts.line, displayOpts, h2]
        omega
    obtain ⟨s, h1, h2⟩ := this n 0
    exact ⟨s, (C19_display false _ s).2 h1, h2⟩

/-- C89: reading a text and printing the value makes it at most 48 times as long. -/
theorem C89_reprint (s rest t : Str) (v : Value Unit) (h : fromStr u s = some (.ok v, rest)) (ht : v.toString u false = some t) : t.length + 48 * rest.length ≤ 48 * s.length := by
  have h1 := C59_size s rest v h
  have h2 := (C89_display v t ht).2
  omega

/-- C89: decoding and printing: for a type as in C60, the text is at most a constant times the number of bytes read (plus one), and in pretty style a constant times the square. -/
theorem C89_decoded (reg : Reg Id) (t : Id) (hf : FinitelyMany reg t)
    (hs : ∀ u w, Reach reg t u → (reg.resolve u = some (.sequence w) ∨ ∃ n, reg.resolve u = some (.array w n)) → ∀ al x, decodeAsType reg al w [] ≠ .ok x) :
    ∃ C, ∀ (Γ : Type) (ctx : Id → Γ) al bs v r s alt, decodeWith ctx reg al t bs = .ok (v, r) → v.toString u alt = some s →
      s.length ≤ C * (bs.length - r.length + 1) ^ (if alt then 2 else 1) := by
  obtain ⟨C, hC, -⟩ := C60_size reg t hf hs
  obtain ⟨D, hD, -⟩ := C60_depth reg t hf
  obtain ⟨ids, hids⟩ := hf
  obtain ⟨N, hN⟩ := finite_bound ids hids (fun u => TypeDef.nameWidth (reg.resolve u))
  refine ⟨(48 + 6 * D + 4 * N) * C, fun Γ ctx al bs v r s alt h hv => ?_⟩
  have h1 := hC Γ ctx al bs v r h
  have hd := hD Γ ctx al bs v r h
  obtain ⟨-, p, rfl, hp⟩ := decodeWith_ok_iff.1 h
  have h2 := scale_names (by simp) hp hN
  rw [List.length_append] at h1 hd ⊢
  have e : p.length + r.length - r.length + 1 = p.length + 1 := by omega
  rw [e]
  have h1 : v.size ≤ C * (p.length + 1) := by
    have : C * (p.length + r.length + 1) = C * (p.length + 1) + C * r.length := by ring
    omega
  have hd : ∀ n, Deep v n → n ≤ D * (p.length + 1) := by
    intro n hn
    have := hd n hn
    have : D * (p.length + r.length + 1) = D * (p.length + 1) + D * r.length := by ring
    omega
  have h3 : 2 * v.nameSize ≤ 4 * N * v.size := by
    have : 4 * N * v.size = 2 * (2 * N * v.size) := by ring
    omega
  cases alt with
  | false =>
    have h4 := (C89_display v s hv).2
    have h5 : (48 + 4 * N) * v.size ≤ (48 + 4 * N) * (C * (p.length + 1)) := Nat.mul_le_mul_left _ h1
    have h6 : (48 + 4 * N) * v.size = 48 * v.size + 4 * N * v.size := by ring
    have h7 : (48 + 6 * D + 4 * N) * C * (p.length + 1) ^ (if false = true then 2 else 1) = (48 + 4 * N) * (C * (p.length + 1)) + 6 * D * C * (p.length + 1) := by simp; ring
    rw [h7]
    omega
  | true =>
    have h4 := (C89_display_pretty v (D * (p.length + 1)) (fun n hn => Nat.le_succ_of_le (hd n hn)) s hv).2
    have h5 : (48 + 6 * (D * (p.length + 1)) + 4 * N) * v.size ≤ (48 + 6 * (D * (p.length + 1)) + 4 * N) * (C * (p.length + 1)) := Nat.mul_le_mul_left _ h1
    have h6 : (48 + 6 * (D * (p.length + 1)) + 4 * N) * v.size = (48 + 6 * (D * (p.length + 1))) * v.size + 4 * N * v.size := by ring
    have h7 : (48 + 6 * (D * (p.length + 1)) + 4 * N) * (C * (p.length + 1)) ≤ ((48 + 6 * D + 4 * N) * (p.length + 1)) * (C * (p.length + 1)) := by
      refine Nat.mul_le_mul_right _ ?_
      nlinarith [Nat.zero_le p.length, Nat.zero_le N]
    have h8 : (48 + 6 * D + 4 * N) * C * (p.length + 1) ^ (if true = true then 2 else 1) = ((48 + 6 * D + 4 * N) * (p.length + 1)) * (C * (p.length + 1)) := by simp; ring
    rw [h8]
    omega

/-- C89 on a value with all kinds of parts: 5 values, 3 characters in strings and 3 bits, and 7 characters of names are 41 characters in normal style. -/
example : (Builder.new (T := Nat) stringWriter).toString .ascii exPrintable = some "v\"x y\" ({ a: -7, \"b c\": \"\\n\\\"é\" }, <101>)".toList ∧ "v\"x y\" ({ a: -7, \"b c\": \"\\n\\\"é\" }, <101>)".toList.length = 41 ∧
    exPrintable.size = 11 ∧ exPrintable.nameSize = 7 := by
  exact ⟨by decide +kernel, by decide, by decide, by decide⟩

/-- The longest text of a single value that is no string or bit sequence: 40 characters. -/
example : (Value.i128 ⟨-2 ^ 127, by decide, by decide⟩).toString .ascii false = some "-170141183460469231731687303715884105728".toList ∧ (Value.i128 ⟨-2 ^ 127, by decide, by decide⟩).size = 1 := by
  exact ⟨by decide +kernel, by decide⟩

/-- `((()))` in pretty style is 18 characters, `2 * 3 ^ 2`. -/
example : (boxes 2).toString .ascii true = some "(\n  (\n    ()\n  )\n)".toList := by decide +kernel

end SV
