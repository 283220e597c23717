import Verif.Proofs.Balanced
import Verif.Props.Builders
import Verif.Props.TraceShow
/-
C96: texts of values can be embedded in other texts.
-/
namespace SV

variable {T : Type} {u : Uni}

/-- C96: in what is written, quotes and brackets are balanced, in every style and whatever is in strings, chars and names; if they are in what custom formatters
write, in contexts and in indents. -/
theorem C96_balanced (o : FmtOpts T) (v : Value T) (s : Str) (h : (o.builder stringWriter).toString u v = some s)
    (hi : Balanced o.indentBy) (hl : Balanced o.leadingIndent) (hf : ∀ f ∈ o.formatters, ∀ v ws, f v = some ws → Balanced ws.flatten)
    (hc : ∀ p, o.context = some p → ∀ c, Balanced (p c).flatten) : Balanced s := by
  refine (pieces_balanced (u := u) hi hl ?_ hc).shown ((C17_exact o v s).1 h)
  intro v s h
  obtain ⟨ws, h1, rfl⟩ := Option.map_eq_some_iff.1 h
  obtain ⟨f, h2, h3⟩ := List.exists_of_findSome?_eq_some h1
  exact hf f h2 v ws h3

/-- C96 for `Display`. -/
theorem C96_display_balanced (alt : Bool) (v : Value T) (s : Str) (h : v.toString u alt = some s) : Balanced s := by
  refine C96_balanced (displayOpts alt) v s ((C17_exact _ v s).2 ((C19_display alt v s).1 h)) ?_ ?_ (by intro f hf; cases hf) (by intro p hp; cases hp)
  · exact .ws (u := u) (by intro c hc; simp [displayOpts] at hc; subst hc; exact ws_space)
  · exact .nil

/-- C96: so where a text of a value ends that is put in brackets (or is itself in brackets) can be seen without parsing it: there is only one
place. -/
theorem C96_ends_once (a b : Char) (h : Brackets a b) (s s' r r' : Str) (hs : Balanced s) (hs' : Balanced s') (e : a :: s ++ b :: r = a :: s' ++ b :: r') :
    s = s' ∧ r = r' := by
  have hb : b ∈ [')', '}', '>'] := by cases h <;> decide
  simp only [List.cons_append, List.cons.injEq, true_and] at e
  have := balanced_unique hb hb hs hs' e
  exact ⟨this.1, this.2.2⟩

/-- A value with quotes, brackets and line feeds everywhere. -/
def exHostile : Value Unit :=
  .unnamedComposite [.string "a\n\")".toList, .char '\'', .mk (.variant (.mk "x}\r".toList (.named [("(".toList, .bitSequence [true])]))) ()]

example : exHostile.toString .ascii false = some "(\"a\\n\\\")\", '\\'', v\"x}\\r\" { \"(\": <1> })".toList := by decide +kernel

/-- C96: what is written has line feeds, tabs, carriage returns and null characters only in the lines of pretty style: as line breaks, or in the
indents; if there are none in what custom formatters write and in contexts. -/
theorem C96_layout_characters (o : FmtOpts T) (v : Value T) (s : Str) (h : (o.builder stringWriter).toString u v = some s)
    (hf : ∀ f ∈ o.formatters, ∀ v ws, f v = some ws → ∀ c ∈ ws.flatten, ¬ IsLayout c) (hc : ∀ p, o.context = some p → ∀ x, ∀ c ∈ (p x).flatten, ¬ IsLayout c)
    (c : Char) (hm : c ∈ s) (hl : IsLayout c) : (∃ n, o.style = .pretty n) ∧ (c = '\n' ∨ c ∈ o.indentBy ∨ c ∈ o.leadingIndent) := by
  have : Tidy o s := by
    refine (pieces_tidy (u := u) ?_ hc).shown ((C17_exact o v s).1 h)
    intro v s h
    obtain ⟨ws, h1, rfl⟩ := Option.map_eq_some_iff.1 h
    obtain ⟨f, h2, h3⟩ := List.exists_of_findSome?_eq_some h1
    exact hf f h2 v ws h3
  rcases this c hm hl with ⟨h1, h2⟩ | ⟨h1, h2⟩
  · exact ⟨h2, .inl h1⟩
  · exact ⟨h1, .inr h2⟩

theorem hex_word (bs : List UInt8) : ∀ c ∈ '0' :: 'x' :: upperHex bs, WordChar u c := by
  have hx : WordChar u 'x' := .inl (by simp [Uni.alnum]; left; rw [u.alpha_ascii _ (by decide)]; decide)
  have hd : ∀ n, n < 16 → isDigit (upperDigits.getD n '?') = true ∨ isAsciiLetter (upperDigits.getD n '?') = true := by decide
  have hw : ∀ n, n < 16 → WordChar u (upperDigits.getD n '?') := by
    intro n hn
    have h128 : ∀ n, n < 16 → (upperDigits.getD n '?').toNat < 128 := by decide
    rcases hd n hn with h | h
    · exact .digit h
    · exact .inl (by simp only [Uni.alnum, Bool.or_eq_true]; left; rw [u.alpha_ascii _ (h128 n hn)]; exact h)
  have hall : ∀ bs, ∀ c ∈ upperHex bs, WordChar u c := by
    intro bs
    induction bs with
    | nil => simp [upperHex]
    | cons b bs ih =>
      intro c hc
      have hb : b.toNat < 256 := b.toNat_lt
      simp only [upperHex, List.mem_cons] at hc
      rcases hc with rfl | rfl | hc
      · exact hw _ (by omega)
      · exact hw _ (by omega)
      · exact ih c hc
  intro c hc
  rcases List.mem_cons.1 hc with rfl | hc
  · exact .digit (by decide)
  rcases List.mem_cons.1 hc with rfl | hc
  · exact hx
  · exact hall bs c hc

/-- C96 with `format_hex` in any style. -/
theorem C96_hex (st : Style) (v : Value T) (s : Str) (h : ((FmtOpts.mk st [' ', ' '] [] [hexFmt] none).builder stringWriter).toString u v = some s) :
    Balanced s ∧ ∀ c ∈ s, IsLayout c → c = '\n' ∧ ∃ n, st = .pretty n := by
  have hx : ∀ f ∈ [hexFmt (T := T)], ∀ v ws, f v = some ws → ∀ c ∈ ws.flatten, WordChar u c := by
    intro f hf v ws hws
    simp at hf; subst hf
    rcases hexFmt_spec v with ⟨bs, -, -, e⟩ | ⟨e, -⟩
    · rw [hws] at e; simp at e; rw [e]; exact hex_word bs
    · rw [hws] at e; cases e
  constructor
  · refine C96_balanced _ v s h ?_ .nil (fun f hf v ws hws => .word (hx f hf v ws hws)) (by intro p hp; cases hp)
    exact .ws (u := u) (by intro c hc; simp at hc; subst hc; exact ws_space)
  · intro c hc hl
    have := C96_layout_characters _ v s h (fun f hf v ws hws c hc => (hx f hf v ws hws c hc).not_layout) (by intro p hp; cases hp) c hc hl
    refine ⟨?_, this.1⟩
    rcases this.2 with h | h | h
    · exact h
    · simp at h; subst h; exact absurd hl (by rintro (h | h | h | h) <;> revert h <;> decide)
    · cases h

/-- C96: so `to_string()` is always one line. -/
theorem C96_one_line (v : Value T) (s : Str) (h : v.toString u false = some s) : '\n' ∉ s ∧ '\r' ∉ s := by
  have h' := (C17_exact _ v s).2 ((C19_display false v s).1 h)
  have key := fun c hm hl => (C96_layout_characters (displayOpts false) v s h' (by intro f hf; cases hf) (by intro p hp; cases hp) c hm hl).1
  constructor
  · intro hm; obtain ⟨n, hn⟩ := key _ hm (.inl rfl); cases hn
  · intro hm; obtain ⟨n, hn⟩ := key _ hm (.inr (.inr (.inl rfl))); cases hn

/-- C96: other characters are written as they are, even those that some programs take for the end of a line. -/
theorem C96_others_raw (c : Char) (h : ∀ e, ¬ Escape e c) : (Value.string [c]).toString u false = some ['"', c, '"'] := by
  rw [C19_display]
  have := Shown.string (u := u) (o := (displayOpts false : FmtOpts Unit)) (k := 0) (.plain h .nil)
  exact Shown.default (o := displayOpts false) (c := ()) rfl this

example : ∀ e, ¬ Escape e (Char.ofNat 0x2028) := by intro e h; revert h; generalize hc : Char.ofNat 0x2028 = c; intro h; cases h <;> revert hc <;> decide

end SV
