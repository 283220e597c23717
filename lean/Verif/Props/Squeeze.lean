import Verif.Proofs.Squeeze
import Verif.Props.Format
/-
C62: styles differ only in whitespace.
-/
namespace SV

variable {T : Type} {u : Uni}

/-- C62: a value can be written in any style if it can in compact style; the compact text is what remains of the text in any style (with indents of whitespace) when the whitespace outside of
quotes is removed. -/
theorem C62_only_whitespace (o : FmtOpts T) (hf : o.formatters = []) (hc : o.context = none) (hi : ∀ c ∈ o.indentBy ++ o.leadingIndent, u.ws c = true) (v : Value T) :
    (compactOpts.builder stringWriter).toString u v = ((o.builder stringWriter).toString u v).map (squeeze u .out) := by
  have ho : PlainOpts u o := ⟨hf, hc, fun c h => hi c (by simp [h]), fun c h => hi c (by simp [h])⟩
  cases h : (o.builder stringWriter).toString u v with
  | some s =>
    obtain ⟨s', h1, h2⟩ := shown_squeeze ho ((C17_exact o v s).1 h)
    have := h2 []
    rw [(C17_exact compactOpts v s').2 (h1 0)]
    simpa [squeeze] using this.symm
  | none =>
    have h1 : Exposed256 o v := Classical.byContradiction fun hn => by
      obtain ⟨s, hs⟩ := (C07_with_formatters (u := u) o v).2 hn
      rw [h] at hs; cases hs
    have h2 : Exposed256 compactOpts v := by
      clear h
      induction h1 with
      | here _ hp => exact .here rfl hp
      | part _ hf hw _ ih => exact .part rfl hf hw ih
    cases h3 : (compactOpts.builder stringWriter).toString u v with
    | none => rfl
    | some s => exact absurd h2 ((C07_with_formatters compactOpts v).1 ⟨s, h3⟩)

/-- C62: so the texts in any two styles differ only in whitespace outside of quotes. -/
theorem C62_any_two (o p : FmtOpts T) (hf : o.formatters = [] ∧ p.formatters = []) (hc : o.context = none ∧ p.context = none)
    (hi : ∀ c ∈ o.indentBy ++ o.leadingIndent ++ p.indentBy ++ p.leadingIndent, u.ws c = true) (v : Value T) (s t : Str)
    (hs : (o.builder stringWriter).toString u v = some s) (ht : (p.builder stringWriter).toString u v = some t) : squeeze u .out s = squeeze u .out t := by
  have h1 := C62_only_whitespace (u := u) o hf.1 hc.1 (fun c h => hi c (by simp at h ⊢; rcases h with h | h <;> simp [h])) v
  have h2 := C62_only_whitespace (u := u) p hf.2 hc.2 (fun c h => hi c (by simp at h ⊢; rcases h with h | h <;> simp [h])) v
  rw [hs] at h1
  rw [ht] at h2
  exact Option.some.inj (h1.symm.trans h2)

/-- C62: compact output is the shortest, and `{}` and `{:#}` only add whitespace to it. -/
theorem C62_shortest (alt : Bool) (v : Value T) (s : Str) (h : v.toString u alt = some s) :
    ∃ t, (compactOpts.builder stringWriter).toString u v = some t ∧ t = squeeze u .out s ∧ t.length ≤ s.length := by
  have e : v.toString u alt = ((displayOpts alt).builder stringWriter).toString u v := by
    rw [toString_eq]
    have : defaultBuilder (T := T) stringWriter alt = (displayOpts alt).builder stringWriter := by cases alt <;> rfl
    rw [this]
  have := C62_only_whitespace (u := u) (displayOpts alt) rfl rfl (by intro c hc; simp [displayOpts] at hc; subst hc; exact ws_space) v
  rw [← e, h] at this
  exact ⟨_, this, rfl, squeeze_length _ _⟩

/-- C62 on a value with a quoted name, which keeps its space. -/
example : exPrintable.toString .ascii true = some "v\"x y\" (\n  {\n    a: -7,\n    \"b c\": \"\\n\\\"é\"\n  },\n  <101>\n)".toList ∧
    squeeze .ascii .out "v\"x y\" (\n  {\n    a: -7,\n    \"b c\": \"\\n\\\"é\"\n  },\n  <101>\n)".toList = "v\"x y\"({a:-7,\"b c\":\"\\n\\\"é\"},<101>)".toList := by
  decide +kernel

end SV
