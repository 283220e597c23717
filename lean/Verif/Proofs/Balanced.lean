import Verif.Spec.Balanced
import Verif.Proofs.FormatGap
import Verif.Proofs.FormatLayout
/-
Quotes and brackets in texts of values.
-/
namespace SV

variable {T : Type} {u : Uni}

theorem Balanced.append {a b : Str} (ha : Balanced a) (hb : Balanced b) : Balanced (a ++ b) := by
  induction ha with
  | nil => exact hb
  | plain h _ ih => exact .plain h ih
  | quoted hq ht _ ih =>
    rw [List.append_assoc, List.cons_append]
    exact .quoted hq ht ih
  | bracketed h hs _ _ ih =>
    rw [List.append_assoc, List.cons_append]
    exact .bracketed h hs ih

theorem Balanced.wrap {a b : Char} {s : Str} (h : Brackets a b) (hs : Balanced s) : Balanced (a :: s ++ [b]) := .bracketed h hs .nil

/-- The characters of names and numbers. -/
def WordChar (u : Uni) (c : Char) : Prop := u.alnum c = true ∨ c = '_' ∨ c = '-' ∨ c = '+'

theorem WordChar.digit {c : Char} (h : isDigit c = true) : WordChar u c := by
  left
  have : c.toNat < 128 := isDigit_lt h
  simp [Uni.alnum, u.numeric_ascii c this, h]

theorem ascii_word {c : Char} (h : c.toNat < 128) (h1 : isAsciiLetter c = false) (h2 : isDigit c = false) (h3 : c ≠ '_') (h4 : c ≠ '-') (h5 : c ≠ '+') :
    ¬ WordChar u c := by
  rintro (h' | h' | h' | h')
  · simp [Uni.alnum, u.alpha_ascii c h, u.numeric_ascii c h, h1, h2] at h'
  all_goals contradiction

theorem WordChar.plain {c : Char} (h : WordChar u c) : c ∉ ['(', ')', '{', '}', '<', '>', '"', '\''] := by
  intro hc
  simp only [List.mem_cons, List.not_mem_nil, or_false] at hc
  rcases hc with rfl | rfl | rfl | rfl | rfl | rfl | rfl | rfl <;>
    exact ascii_word (u := u) (by decide) (by decide) (by decide) (by decide) (by decide) (by decide) h

theorem WordChar.not_layout {c : Char} (h : WordChar u c) : ¬ IsLayout c := by
  rintro (rfl | rfl | rfl | rfl) <;>
    exact ascii_word (u := u) (by decide) (by decide) (by decide) (by decide) (by decide) (by decide) h

theorem ws_plain {c : Char} (h : u.ws c = true) : c ∉ ['(', ')', '{', '}', '<', '>', '"', '\''] := by
  intro hc
  simp only [List.mem_cons, List.not_mem_nil, or_false] at hc
  rcases hc with rfl | rfl | rfl | rfl | rfl | rfl | rfl | rfl <;>
    exact absurd h (by rw [ws_false_ascii (by decide) (by decide)]; decide)

theorem balanced_plain {s : Str} (h : ∀ c ∈ s, c ∉ ['(', ')', '{', '}', '<', '>', '"', '\'']) : Balanced s := by
  induction s with
  | nil => exact .nil
  | cons c s ih => exact .plain (h c (by simp)) (ih fun d hd => h d (by simp [hd]))

theorem Balanced.ws {s : Str} (h : Ws u s) : Balanced s := balanced_plain fun c hc => ws_plain (h c hc)
theorem Balanced.word {s : Str} (h : ∀ c ∈ s, WordChar u c) : Balanced s := balanced_plain fun c hc => (h c hc).plain

theorem ident_word {n : Str} (h : Ident u n) : ∀ c ∈ n, WordChar u c := by
  cases h with
  | mk hc hcs =>
    intro x hx
    rcases List.mem_cons.1 hx with rfl | hx
    · exact .inl (alpha_alnum hc)
    · rcases hcs x hx with h | h
      · exact .inl h
      · exact .inr (.inl h)

theorem bits_word (bs : List Bool) : ∀ c ∈ bitChars bs, WordChar u c := by
  intro c hc
  obtain ⟨b, -, rfl⟩ := List.mem_map.1 hc
  cases b <;> exact .digit (by decide)

theorem toDigits_word (n : Nat) : ∀ c ∈ Nat.toDigits 10 n, WordChar u c := by
  intro c hc
  refine .digit ?_
  have := Nat.isDigit_of_mem_toDigits (by decide) (by decide) hc
  simp [Char.isDigit] at this
  simp [isDigit]
  exact this

theorem escaped_quote {s t : Str} (q : Char) (hq : q = '"' ∨ q = '\'') (h : Escaped s t) : QuoteBody q t := by
  induction h with
  | nil => exact .nil
  | esc _ _ ih => exact .esc ih
  | plain hc _ ih =>
    refine .plain ?_ ?_ ih
    · rintro rfl; rcases hq with rfl | rfl
      · exact hc _ .dq
      · exact hc _ .sq
    · rintro rfl; exact hc _ .bs

theorem Balanced.quote {q : Char} {t : Str} (hq : q = '"' ∨ q = '\'') (ht : QuoteBody q t) : Balanced (q :: t ++ [q]) := .quoted hq ht .nil

theorem Balanced.single {c : Char} (h : c ∉ ['(', ')', '{', '}', '<', '>', '"', '\'']) : Balanced [c] := .plain h .nil

/-- What is true of the pieces that texts are made of, and kept when they are put together, is true of texts. -/
structure Pieces (u : Uni) (o : FmtOpts T) (P : Str → Prop) : Prop where
  append : ∀ {a b}, P a → P b → P (a ++ b)
  word : ∀ s, (∀ c ∈ s, WordChar u c) → P s
  quoted : ∀ q s t, q = '"' ∨ q = '\'' → Escaped s t → P (q :: t ++ [q])
  wrap : ∀ a b s, Brackets a b → P s → P (a :: s ++ [b])
  comma : P [',']
  colon : P [':']
  space : P [' ']
  line : ∀ d, P (o.line d)
  gap : ∀ d, P (o.gap d)
  custom : ∀ v s, o.custom v = some s → P s
  context : ∀ p, o.context = some p → ∀ c, P (p c).flatten

section
variable {o : FmtOpts T} {P : Str → Prop} (hP : Pieces u o P)
include hP

theorem Pieces.nil : P [] := hP.word [] (by simp)
theorem Pieces.cons {c : Char} {s : Str} (hc : P [c]) (hs : P s) : P (c :: s) := hP.append hc hs

theorem Pieces.name {v n s : Str} (hv : ∀ c ∈ v, WordChar u c) (h : ShownName u v n s) : P s := by
  cases h with
  | ident h => exact hP.word _ (ident_word h)
  | quoted _ ht => rw [List.append_assoc]; exact hP.append (hP.word _ hv) (hP.quoted _ _ _ (.inl rfl) ht)

theorem Pieces.optSpace : P o.space := by
  unfold FmtOpts.space
  split
  · exact hP.nil
  all_goals exact hP.space

theorem Pieces.before (c : T) : P (o.before c) := by
  unfold FmtOpts.before
  split
  · exact hP.nil
  · next p h =>
    have := hP.append (hP.wrap '<' '>' _ .angle (hP.context p h c)) hP.space
    simpa using this

theorem Pieces.shown {k : Nat} {cat : ShowCat T} {s : Str} (h : Shown u o k cat s) : P s := by
  induction h with
  | custom h => exact hP.append (hP.before _) (hP.custom _ _ h)
  | default _ _ ih => exact hP.append (hP.before _) ih
  | true_ => exact hP.word _ (ident_word (.mk (by rw [u.alpha_ascii _ (by decide)]; decide) (by intro d hd; left; simp at hd; rcases hd with rfl | rfl | rfl <;> (simp [Uni.alnum]; left; rw [u.alpha_ascii _ (by decide)]; decide))))
  | false_ => exact hP.word _ (ident_word (.mk (by rw [u.alpha_ascii _ (by decide)]; decide) (by intro d hd; left; simp at hd; rcases hd with rfl | rfl | rfl | rfl <;> (simp [Uni.alnum]; left; rw [u.alpha_ascii _ (by decide)]; decide))))
  | char h => exact hP.quoted _ _ _ (.inr rfl) h
  | string h => exact hP.quoted _ _ _ (.inl rfl) h
  | unsigned => exact hP.word _ (toDigits_word _)
  | nonneg h => exact hP.word _ (toDigits_word _)
  | negative h hm =>
    refine hP.word _ fun c hc => ?_
    rcases List.mem_cons.1 hc with rfl | hc
    · exact .inr (.inr (.inl rfl))
    · exact toDigits_word _ c hc
  | bits => exact hP.wrap _ _ _ .angle (hP.word _ (bits_word _))
  | composite _ ih => exact ih
  | variant hn _ ih =>
    refine hP.append (hP.append (hP.name ?_ hn) hP.optSpace) ih
    intro c hc; simp at hc; subst hc
    left; simp [Uni.alnum]; left; rw [u.alpha_ascii _ (by decide)]; decide
  | namedEmpty => exact hP.wrap '{' '}' [] .curly hP.nil
  | unnamedEmpty => exact hP.wrap '(' ')' [] .round hP.nil
  | @named k fs s _ ih =>
    have := hP.wrap _ _ _ .curly (hP.append (hP.append (hP.gap (k + 1)) ih) (hP.gap k))
    simpa using this
  | @unnamed k vs s _ ih =>
    have := hP.wrap _ _ _ .round (hP.append (hP.append (hP.line (k + 1)) ih) (hP.line k))
    simpa using this
  | field1 hn _ ih => exact hP.append (hP.append (hP.name (by simp) hn) (hP.cons hP.colon hP.optSpace)) ih
  | @fieldCons k _ _ _ _ _ _ hn _ _ ih1 ih2 =>
    have h1 := hP.append (hP.append (hP.name (by simp) hn) (hP.cons hP.colon hP.optSpace)) ih1
    have := hP.append h1 (hP.append (hP.cons hP.comma (hP.gap k)) ih2)
    simpa using this
  | val1 _ ih => exact ih
  | @valCons k _ _ _ _ _ _ ih1 ih2 =>
    have := hP.append ih1 (hP.append (hP.cons hP.comma (hP.gap k)) ih2)
    simpa using this

end

theorem pieces_newline {o : FmtOpts T} {P : Str → Prop} (ha : ∀ {a b : Str}, P a → P b → P (a ++ b)) (h0 : P []) (hn : P ['\n']) (hi : P o.indentBy) (hl : P o.leadingIndent) (n : Nat) :
    P ('\n' :: o.leadingIndent ++ rep o.indentBy n) := by
  have hr : P (rep o.indentBy n) := by
    induction n with
    | zero => exact h0
    | succ n ih => exact ha hi ih
  exact ha (a := '\n' :: o.leadingIndent) (ha (a := ['\n']) hn hl) hr

theorem pieces_balanced {o : FmtOpts T} (hi : Balanced o.indentBy) (hl : Balanced o.leadingIndent) (hf : ∀ v s, o.custom v = some s → Balanced s)
    (hc : ∀ p, o.context = some p → ∀ c, Balanced (p c).flatten) : Pieces u o Balanced where
  append := Balanced.append
  word _ := Balanced.word
  quoted q _ _ hq h := .quote hq (escaped_quote q hq h)
  wrap _ _ _ := Balanced.wrap
  comma := .single (by decide)
  colon := .single (by decide)
  space := .single (by decide)
  line d := by
    unfold FmtOpts.line
    split
    · exact .nil
    · exact .nil
    · exact pieces_newline Balanced.append .nil (.single (by decide)) hi hl _
  gap d := by
    unfold FmtOpts.gap
    split
    · exact .nil
    · exact .single (by decide)
    · exact pieces_newline Balanced.append .nil (.single (by decide)) hi hl _
  custom := hf
  context := hc

/-- Which layout characters a text may have. -/
def Tidy (o : FmtOpts T) (s : Str) : Prop := ∀ c ∈ s, IsLayout c → (c = '\n' ∧ ∃ n, o.style = .pretty n) ∨ ((∃ n, o.style = .pretty n) ∧ (c ∈ o.indentBy ∨ c ∈ o.leadingIndent))

theorem Tidy.append {o : FmtOpts T} {a b : Str} (ha : Tidy o a) (hb : Tidy o b) : Tidy o (a ++ b) := by
  intro c hc
  rcases List.mem_append.1 hc with h | h
  · exact ha c h
  · exact hb c h

theorem tidy_of {o : FmtOpts T} {s : Str} (h : ∀ c ∈ s, ¬ IsLayout c) : Tidy o s := fun c hc hl => absurd hl (h c hc)

theorem escaped_tidy {s t : Str} (h : Escaped s t) : ∀ c ∈ t, ¬ IsLayout c := by
  induction h with
  | nil => simp
  | esc he _ ih =>
    intro c hc
    rcases List.mem_cons.1 hc with rfl | hc
    · rintro (h | h | h | h) <;> revert h <;> decide
    rcases List.mem_cons.1 hc with rfl | hc
    · cases he <;> (rintro (h | h | h | h) <;> revert h <;> decide)
    · exact ih c hc
  | plain hn _ ih =>
    intro c hc
    rcases List.mem_cons.1 hc with rfl | hc
    · rintro (rfl | rfl | rfl | rfl)
      · exact hn _ .nl
      · exact hn _ .tab
      · exact hn _ .cr
      · exact hn _ .nul
    · exact ih c hc

theorem tidy_single {o : FmtOpts T} {c : Char} (h : ¬ IsLayout c) : Tidy o [c] := tidy_of (by intro d hd; simp at hd; subst hd; exact h)

theorem pieces_tidy {o : FmtOpts T} (hf : ∀ v s, o.custom v = some s → ∀ c ∈ s, ¬ IsLayout c) (hc : ∀ p, o.context = some p → ∀ x, ∀ c ∈ (p x).flatten, ¬ IsLayout c) :
    Pieces u o (Tidy o) where
  append := Tidy.append
  word s h := tidy_of fun c hc => (h c hc).not_layout
  quoted q s t hq h := by
    have hq' : ¬ IsLayout q := by rcases hq with rfl | rfl <;> (rintro (h | h | h | h) <;> revert h <;> decide)
    exact .append (.append (a := [q]) (tidy_single hq') (tidy_of (escaped_tidy h))) (tidy_single hq')
  wrap a b s h hs := by
    refine .append (.append (a := [a]) (tidy_single ?_) hs) (tidy_single ?_) <;> cases h <;> (rintro (h | h | h | h) <;> revert h <;> decide)
  comma := tidy_single (by rintro (h | h | h | h) <;> revert h <;> decide)
  colon := tidy_single (by rintro (h | h | h | h) <;> revert h <;> decide)
  space := tidy_single (by rintro (h | h | h | h) <;> revert h <;> decide)
  line d := by
    unfold FmtOpts.line
    split
    · exact tidy_of (by simp)
    · exact tidy_of (by simp)
    · next n hn =>
      exact pieces_newline Tidy.append (tidy_of (by simp)) (fun c hc _ => .inl ⟨by simpa using hc, n, hn⟩) (fun c hc _ => .inr ⟨⟨n, hn⟩, .inl hc⟩)
        (fun c hc _ => .inr ⟨⟨n, hn⟩, .inr hc⟩) _
  gap d := by
    unfold FmtOpts.gap
    split
    · exact tidy_of (by simp)
    · exact tidy_single (by rintro (h | h | h | h) <;> revert h <;> decide)
    · next n hn =>
      exact pieces_newline Tidy.append (tidy_of (by simp)) (fun c hc _ => .inl ⟨by simpa using hc, n, hn⟩) (fun c hc _ => .inr ⟨⟨n, hn⟩, .inl hc⟩)
        (fun c hc _ => .inr ⟨⟨n, hn⟩, .inr hc⟩) _
  custom v s h := tidy_of (hf v s h)
  context p h c := tidy_of (hc p h c)

/-! ### Where brackets end -/

theorem quoteBody_unique {q : Char} {t t' r r' : Str} (h : QuoteBody q t) (h' : QuoteBody q t') (hq : q ≠ '\\') (e : t ++ q :: r = t' ++ q :: r') : t = t' ∧ r = r' := by
  induction h generalizing t' with
  | nil =>
    cases h' with
    | nil => exact ⟨rfl, by simpa using e⟩
    | plain h1 => simp at e; exact absurd e.1.symm h1
    | esc => simp at e; exact absurd e.1 hq
  | plain h1 h2 _ ih =>
    cases h' with
    | nil => simp at e; exact absurd e.1 h1
    | plain h1' h2' h' =>
      simp at e
      obtain ⟨e1, e2⟩ := ih h' e.2
      exact ⟨by rw [e.1, e1], e2⟩
    | esc => simp at e; exact absurd e.1 h2
  | esc _ ih =>
    cases h' with
    | nil => simp at e; exact absurd e.1.symm hq
    | plain h1' h2' h' => simp at e; exact absurd e.1.symm h2'
    | esc h' =>
      simp at e
      obtain ⟨e1, e2⟩ := ih h' e.2
      exact ⟨by rw [e.1, e1], e2⟩

/-- A balanced text ends where a closing bracket too many begins. -/
theorem balanced_unique {s s' r r' : Str} {c c' : Char} (hc : c ∈ [')', '}', '>']) (hc' : c' ∈ [')', '}', '>']) (h : Balanced s) (h' : Balanced s')
    (e : s ++ c :: r = s' ++ c' :: r') : s = s' ∧ c = c' ∧ r = r' := by
  have hopen : ∀ {a b}, Brackets a b → ∀ c ∈ [')', '}', '>'], a ≠ c := by
    intro a b h c hc e
    subst e
    cases h <;> revert hc <;> decide
  have hplain : ∀ c ∈ [')', '}', '>'], c ∈ ['(', ')', '{', '}', '<', '>', '"', '\''] := by decide
  have hquote : ∀ {q : Char}, q = '"' ∨ q = '\'' → ∀ c ∈ [')', '}', '>'], q ≠ c := by
    rintro q (rfl | rfl) <;> decide
  have hqp : ∀ {q : Char}, q = '"' ∨ q = '\'' → q ∈ ['(', ')', '{', '}', '<', '>', '"', '\''] := by
    rintro q (rfl | rfl) <;> decide
  have hap : ∀ {a b}, Brackets a b → a ∈ ['(', ')', '{', '}', '<', '>', '"', '\''] := by
    intro a b h; cases h <;> decide
  have hclose : ∀ {a b}, Brackets a b → b ∈ [')', '}', '>'] := by
    intro a b h; cases h <;> decide
  induction h generalizing s' r r' c c' with
  | nil =>
    cases h' with
    | nil => simp at e; exact ⟨rfl, e.1, e.2⟩
    | plain hn => simp at e; exact absurd (hplain _ (e.1 ▸ hc)) hn
    | quoted hq => simp at e; exact absurd e.1.symm (hquote hq c hc)
    | bracketed h => simp at e; exact absurd e.1.symm (hopen h c hc)
  | plain hn _ ih =>
    cases h' with
    | nil => simp at e; exact absurd (hplain _ (e.1 ▸ hc')) hn
    | plain hn' h' =>
      simp at e
      obtain ⟨e1, e2, e3⟩ := ih hc hc' h' e.2
      exact ⟨by rw [e.1, e1], e2, e3⟩
    | quoted hq => simp at e; exact absurd (hqp hq) (e.1 ▸ hn)
    | bracketed h => simp at e; exact absurd (hap h) (e.1 ▸ hn)
  | @quoted q t s hq ht _ ih =>
    cases h' with
    | nil => simp at e; exact absurd e.1 (hquote hq c' hc')
    | plain hn' h' => simp at e; exact absurd (hqp hq) (e.1 ▸ hn')
    | quoted hq' ht' h' =>
      simp at e
      obtain ⟨rfl, e0⟩ := e
      obtain ⟨rfl, e1⟩ := quoteBody_unique ht ht' (by rcases hq with rfl | rfl <;> decide) e0
      obtain ⟨rfl, e2, e3⟩ := ih hc hc' h' e1
      exact ⟨rfl, e2, e3⟩
    | bracketed h => simp at e; exact absurd e.1 (by rcases hq with rfl | rfl <;> cases h <;> decide)
  | @bracketed a b s t h _ _ ih1 ih2 =>
    cases h' with
    | nil => simp at e; exact absurd e.1 (hopen h c' hc')
    | plain hn' h' => simp at e; exact absurd (hap h) (e.1 ▸ hn')
    | quoted hq => simp at e; exact absurd e.1.symm (by rcases hq with rfl | rfl <;> cases h <;> decide)
    | @bracketed a' b' s' t' h' hs' ht' =>
      simp at e
      obtain ⟨rfl, e0⟩ := e
      obtain ⟨rfl, rfl, e1⟩ := ih1 (hclose h) (hclose h') hs' e0
      obtain ⟨rfl, e2, e3⟩ := ih2 hc hc' ht' e1
      exact ⟨rfl, e2, e3⟩

end SV
