import Verif.Spec.Squeeze
import Verif.Proofs.FormatGap
import Verif.Proofs.FormatLayout
/-
What styles add to compact output is whitespace outside of quotes.
-/
namespace SV

variable {T : Type} {u : Uni}

/-- Removing whitespace leaves `s'` of `s`, whatever follows. -/
def Sq (u : Uni) (s s' : Str) : Prop := ∀ tail, squeeze u .out (s ++ tail) = s' ++ squeeze u .out tail

theorem Sq.nil : Sq u [] [] := fun _ => rfl
theorem Sq.append {a a' b b' : Str} (ha : Sq u a a') (hb : Sq u b b') : Sq u (a ++ b) (a' ++ b') := by
  intro tail; rw [List.append_assoc, ha, hb, List.append_assoc]

theorem Sq.char {c : Char} (hw : u.ws c = false) (h1 : c ≠ '"') (h2 : c ≠ '\'') : Sq u [c] [c] := by
  intro tail; simp [squeeze, hw, Quote.step, h1, h2]

theorem Sq.ascii {c : Char} (h : c.toNat < 128) (hw : isAsciiWs c = false) (h1 : c ≠ '"') (h2 : c ≠ '\'') : Sq u [c] [c] :=
  .char (ws_false_ascii h hw) h1 h2

theorem Sq.cons {c : Char} {s s' : Str} (hc : Sq u [c] [c]) (hs : Sq u s s') : Sq u (c :: s) (c :: s') := hc.append hs

theorem Sq.plain {s : Str} (h : ∀ c ∈ s, PlainChar u c) : Sq u s s := by
  induction s with
  | nil => exact .nil
  | cons c s ih =>
    have hc := h c (by simp)
    exact .cons (.char hc.1 hc.2.2.2.2.2.2.1 hc.2.2.2.2.2.2.2) (ih fun d hd => h d (by simp [hd]))

theorem Sq.ws {s : Str} (h : Ws u s) : Sq u s [] := by
  induction s with
  | nil => exact .nil
  | cons c s ih =>
    intro tail
    simp only [List.cons_append, squeeze, h c (by simp), and_self, if_true]
    exact ih (fun d hd => h d (by simp [hd])) tail

theorem squeeze_escaped {s t : Str} (h : Escaped s t) (q : Quote) (hq : q = .dq ∨ q = .sq) (tail : Str) :
    squeeze u q (t ++ tail) = t ++ squeeze u q tail := by
  induction h with
  | nil => rfl
  | esc he _ ih => rcases hq with rfl | rfl <;> simp [squeeze, Quote.step, ih]
  | @plain c s t hc _ ih =>
    have h1 : c ≠ '\\' := by rintro rfl; exact hc _ .bs
    have h2 : c ≠ '"' := by rintro rfl; exact hc _ .dq
    have h3 : c ≠ '\'' := by rintro rfl; exact hc _ .sq
    rcases hq with rfl | rfl <;> simp [squeeze, Quote.step, h1, h2, h3, ih]

theorem Sq.string {s t : Str} (h : Escaped s t) : Sq u ('"' :: t ++ ['"']) ('"' :: t ++ ['"']) := by
  intro tail
  have := squeeze_escaped (u := u) h .dq (.inl rfl) ('"' :: tail)
  have hw : u.ws '"' = false := ws_false_ascii (by decide) (by decide)
  simp [squeeze, Quote.step, this, hw]

theorem Sq.charLit {s t : Str} (h : Escaped s t) : Sq u ('\'' :: t ++ ['\'']) ('\'' :: t ++ ['\'']) := by
  intro tail
  have := squeeze_escaped (u := u) h .sq (.inr rfl) ('\'' :: tail)
  have hw : u.ws '\'' = false := ws_false_ascii (by decide) (by decide)
  simp [squeeze, Quote.step, this, hw]

theorem Sq.ident {n : Str} (h : Ident u n) : Sq u n n := by
  cases h with
  | mk hc hcs =>
    refine .plain ?_
    intro x hx
    rcases List.mem_cons.1 hx with rfl | hx
    · exact plainChar_alnum (.inl (alpha_alnum hc))
    · exact plainChar_alnum (hcs x hx)

theorem Sq.name {v n s : Str} (hv : Sq u v v) (h : ShownName u v n s) : Sq u s s := by
  cases h with
  | ident h => exact .ident h
  | quoted _ ht => rw [List.append_assoc]; exact hv.append (.string ht)

theorem Sq.digits (n : Nat) : Sq u (Nat.toDigits 10 n) (Nat.toDigits 10 n) := by
  refine .plain fun c hc => plainChar_digit ?_
  have := Nat.isDigit_of_mem_toDigits (by decide) (by decide) hc
  simp [Char.isDigit] at this
  simp [isDigit]
  exact this

theorem Sq.bits (bs : List Bool) : Sq u (bitChars bs) (bitChars bs) := by
  refine .plain fun c hc => ?_
  obtain ⟨b, -, rfl⟩ := List.mem_map.1 hc
  cases b <;> exact plainChar_digit (by decide)

section
variable {o : FmtOpts T} (ho : PlainOpts u o)
include ho

omit ho in
theorem Sq.space : Sq u o.space [] := by
  unfold FmtOpts.space
  split
  · exact .nil
  all_goals exact .ws (by intro c hc; simp at hc; subst hc; exact ws_space)

theorem Sq.newline (n : Nat) : Sq u ('\n' :: o.leadingIndent ++ rep o.indentBy n) [] := by
  refine .ws ?_
  intro c hc
  simp only [List.cons_append, List.mem_cons, List.mem_append] at hc
  rcases hc with rfl | hc | hc
  · exact ws_newline
  · exact ho.lead c hc
  · exact ho.indent c (mem_rep hc)

theorem Sq.line (d : Nat) : Sq u (o.line d) [] := by
  unfold FmtOpts.line
  split
  · exact .nil
  · exact .nil
  · exact .newline ho _

theorem Sq.gap (d : Nat) : Sq u (o.gap d) [] := by
  unfold FmtOpts.gap
  split
  · exact .nil
  · exact .ws (by intro c hc; simp at hc; subst hc; exact ws_space)
  · exact .newline ho _

/-- A text in any style, and the compact text. -/
theorem shown_squeeze {k : Nat} {cat : ShowCat T} {s : Str} (h : Shown u o k cat s) : ∃ s', (∀ k', Shown u compactOpts k' cat s') ∧ Sq u s s' := by
  have cc : ∀ v : Value T, o.custom v = none := fun v => by simp [FmtOpts.custom, ho.formatters]
  have cc' : ∀ v : Value T, (compactOpts (T := T)).custom v = none := fun v => by simp [FmtOpts.custom, compactOpts]
  have cb : ∀ c, o.before c = [] := fun c => ho.before c
  have a : ∀ {c : Char}, c.toNat < 128 → isAsciiWs c = false → c ≠ '"' → c ≠ '\'' → Sq u [c] [c] := fun h hw h1 h2 => .ascii h hw h1 h2
  have comma : Sq u [','] [','] := a (by decide) (by decide) (by decide) (by decide)
  have colon : Sq u [':'] [':'] := a (by decide) (by decide) (by decide) (by decide)
  induction h with
  | custom h => rw [cc] at h; cases h
  | @default k d c s hn _ ih =>
    obtain ⟨s', h1, h2⟩ := ih
    rw [cb]
    exact ⟨s', fun k' => .default (cc' _) (h1 k'), h2⟩
  | true_ => exact ⟨_, fun _ => .true_, .plain (by intro c hc; simp at hc; rcases hc with rfl | rfl | rfl | rfl <;> exact plainChar_ascii (by decide) (by decide) (by decide))⟩
  | false_ => exact ⟨_, fun _ => .false_, .plain (by intro c hc; simp at hc; rcases hc with rfl | rfl | rfl | rfl | rfl <;> exact plainChar_ascii (by decide) (by decide) (by decide))⟩
  | char h => exact ⟨_, fun _ => .char h, .charLit h⟩
  | string h => exact ⟨_, fun _ => .string h, .string h⟩
  | unsigned => exact ⟨_, fun _ => .unsigned, .digits _⟩
  | nonneg h => exact ⟨_, fun _ => .nonneg h, .digits _⟩
  | negative h hm => exact ⟨_, fun _ => .negative h hm, .cons (a (by decide) (by decide) (by decide) (by decide)) (.digits _)⟩
  | bits => exact ⟨_, fun _ => .bits, .cons (a (by decide) (by decide) (by decide) (by decide)) ((Sq.bits _).append (a (by decide) (by decide) (by decide) (by decide)))⟩
  | composite _ ih =>
    obtain ⟨s', h1, h2⟩ := ih
    exact ⟨s', fun k' => .composite (h1 k'), h2⟩
  | @variant k n c s t hn _ ih =>
    obtain ⟨s', h1, h2⟩ := ih
    refine ⟨s ++ s', fun k' => ?_, ?_⟩
    · simpa [compactOpts, FmtOpts.space] using Shown.variant (o := compactOpts) hn (h1 k')
    · have := ((Sq.name (a (by decide) (by decide) (by decide) (by decide)) hn).append (Sq.space (o := o))).append h2
      simpa using this
  | namedEmpty => exact ⟨_, fun _ => .namedEmpty, .cons (a (by decide) (by decide) (by decide) (by decide)) (a (by decide) (by decide) (by decide) (by decide))⟩
  | unnamedEmpty => exact ⟨_, fun _ => .unnamedEmpty, .cons (a (by decide) (by decide) (by decide) (by decide)) (a (by decide) (by decide) (by decide) (by decide))⟩
  | @named k fs s _ ih =>
    obtain ⟨s', h1, h2⟩ := ih
    refine ⟨'{' :: s' ++ ['}'], fun k' => ?_, ?_⟩
    · simpa [compactOpts, FmtOpts.gap] using Shown.named (o := compactOpts) (h1 (k' + 1))
    · have := Sq.cons (c := '{') (a (by decide) (by decide) (by decide) (by decide)) ((((Sq.gap ho (k + 1)).append h2).append (Sq.gap ho k)).append (a (c := '}') (by decide) (by decide) (by decide) (by decide)))
      simpa using this
  | @unnamed k fs s _ ih =>
    obtain ⟨s', h1, h2⟩ := ih
    refine ⟨'(' :: s' ++ [')'], fun k' => ?_, ?_⟩
    · simpa [compactOpts, FmtOpts.line] using Shown.unnamed (o := compactOpts) (h1 (k' + 1))
    · have := Sq.cons (c := '(') (a (by decide) (by decide) (by decide) (by decide)) ((((Sq.line ho (k + 1)).append h2).append (Sq.line ho k)).append (a (c := ')') (by decide) (by decide) (by decide) (by decide)))
      simpa using this
  | @field1 k n v s t hn _ ih =>
    obtain ⟨s', h1, h2⟩ := ih
    refine ⟨s ++ ':' :: s', fun k' => ?_, ?_⟩
    · simpa [compactOpts, FmtOpts.space] using Shown.field1 (o := compactOpts) hn (h1 k')
    · have := (Sq.name .nil hn).append (Sq.cons colon ((Sq.space (o := o)).append h2))
      simpa using this
  | @fieldCons k n v s t fs r hn _ _ ih ih2 =>
    obtain ⟨s', h1, h2⟩ := ih
    obtain ⟨r', h3, h4⟩ := ih2
    refine ⟨(s ++ ':' :: s') ++ ',' :: r', fun k' => ?_, ?_⟩
    · simpa [compactOpts, FmtOpts.space, FmtOpts.gap] using Shown.fieldCons (o := compactOpts) hn (h1 k') (h3 k')
    · have := ((Sq.name .nil hn).append (Sq.cons colon ((Sq.space (o := o)).append h2))).append (Sq.cons comma ((Sq.gap ho k).append h4))
      simpa using this
  | val1 _ ih =>
    obtain ⟨s', h1, h2⟩ := ih
    exact ⟨s', fun k' => .val1 (h1 k'), h2⟩
  | @valCons k v s vs t _ _ ih ih2 =>
    obtain ⟨s', h1, h2⟩ := ih
    obtain ⟨r', h3, h4⟩ := ih2
    refine ⟨s' ++ ',' :: r', fun k' => ?_, ?_⟩
    · simpa [compactOpts, FmtOpts.gap] using Shown.valCons (o := compactOpts) (h1 k') (h3 k')
    · have := h2.append (Sq.cons comma ((Sq.gap ho k).append h4))
      simpa using this
end

theorem squeeze_length (q : Quote) (s : Str) : (squeeze u q s).length ≤ s.length := by
  induction s generalizing q with
  | nil => exact Nat.le_refl _
  | cons c s ih =>
    simp only [squeeze]
    split
    · exact Nat.le_trans (ih q) (by simp)
    · simpa using ih (q.step c)

end SV
