import Verif.Proofs.Builders
import Verif.Props.Format
import Verif.Props.Parse
/-
C95: the options of the builders.
-/
namespace SV

variable {T W : Type} {u : Uni}

/-- C95: after any calls of the methods of the formatter, some options are in effect. -/
theorem C95_options_exist (calls : List (FmtCall T)) : ∃ o, InEffect calls o := inEffect_exists calls

/-- C95: what is written after any calls is the text of the value with the options in effect: the last chosen of each kind, and the
formatters in the order in which they were added. -/
theorem C95_options (calls : List (FmtCall T)) (o : FmtOpts T) (h : InEffect calls o) (v : Value T) (s : Str) :
    (Builder.after stringWriter (calls.map (FmtCall.call stringWriter))).toString u v = some s ↔ Shown u o 0 (.val v) s := by
  rw [inEffect_builder h]
  exact C17_exact o v s

/-- C95: and so for any writer, up to its first failure. -/
theorem C95_any_writer (calls : List (FmtCall T)) (v : Value T) (s : Str) (o : FmtOpts T) (h : InEffect calls o) (hs : Shown u o 0 (.val v) s) :
    ∃ ws : List Str, ws.flatten = s ∧ ∀ {W : Type} (wr : Writer W) (w : W),
      (Builder.after wr (calls.map (FmtCall.call wr))).write u v w = runWrites wr ws w := by
  refine ⟨((o.builder logWriter).write u v []).2, ?_⟩
  have hlog := (C17_exact o v s).2 hs
  have hw := fun {W : Type} (wr : Writer W) (w : W) => C18_writer_failure (u := u) o v wr w
  have hstr : ∀ (l : List Str) (w : Str), runWrites stringWriter l w = (true, w ++ l.flatten) := by
    intro l
    induction l with
    | nil => intro w; simp [runWrites]
    | cons a l ih => intro w; simp [runWrites, stringWriter] at ih ⊢; rw [ih]; simp
  have h1 := hw stringWriter []
  rw [hstr] at h1
  simp only [Builder.toString, h1] at hlog
  cases hok : ((o.builder logWriter).write u v []).1 with
  | false => simp [hok] at hlog
  | true =>
    refine ⟨by simpa [hok] using hlog, ?_⟩
    intro W wr w
    rw [inEffect_builder h, hw wr w, hok]
    generalize runWrites wr _ w = r
    obtain ⟨ok, w'⟩ := r
    cases ok <;> rfl

/-- Two formatters, and calls in which each option but the context is chosen more than once. -/
def exCalls : List (FmtCall Unit) :=
  [.indentBy "~".toList, .compact, .addCustomFormatter fun v => match v with | .mk (.primitive (.bool _)) _ => some [['#']] | _ => none,
   .pretty, .leadingIndent "!".toList, .indentBy "-".toList, .leadingIndent ">".toList,
   .addCustomFormatter fun v => match v with | .mk (.primitive (.bool _)) _ => some [['?']] | _ => none, .formatContext fun _ => [['c']]]

example : (Builder.after stringWriter (exCalls.map (FmtCall.call stringWriter))).toString .ascii
    (.unnamedComposite [.bool true, .u128 ⟨7, by decide⟩]) = some "<c> (\n>-<c> #,\n>-<c> 7\n>)".toList := by decide +kernel

/-- C95: a choice is overridden by any later choice of the same option, whatever is called in between: nothing of it remains, for any
formatters, context printers and writers. -/
theorem C95_overridden (wr : Writer W) (before mid after : List (BuilderCall T W)) (c c' : BuilderCall T W) (h : c.SameOption c') (v : Value T) (w : W) :
    (Builder.after wr (before ++ c :: mid ++ c' :: after)).write u v w = (Builder.after wr (before ++ mid ++ c' :: after)).write u v w := by
  have key : ∀ b : Builder T W, c'.run ((mid.foldl BuilderCall.run (c.run b))) = c'.run (mid.foldl BuilderCall.run b) := by
    intro b
    obtain ⟨rs, hs⟩ := last_exists BuilderCall.style? (mid ++ [c'])
    obtain ⟨rl, hl⟩ := last_exists BuilderCall.leadingIndent? (mid ++ [c'])
    obtain ⟨ri, hi⟩ := last_exists BuilderCall.indentBy? (mid ++ [c'])
    obtain ⟨rc, hc⟩ := last_exists BuilderCall.context? (mid ++ [c'])
    have e : ∀ b : Builder T W, c'.run (mid.foldl BuilderCall.run b) = (mid ++ [c']).foldl BuilderCall.run b := by intro b; simp
    have none_last : ∀ {β : Type} (f : BuilderCall T W → Option β), Last f (mid ++ [c']) none → f c' = none := by
      intro β f h
      generalize hm : mid ++ [c'] = l at h
      generalize hr : (none : Option β) = r at h
      cases h with
      | never h => exact h c' (by rw [← hm]; simp)
      | «at» => cases hr
    rw [e, e]
    apply builder_ext
    · simp only [run_wr]; cases c <;> rfl
    · rw [run_style _ hs, run_style _ hs]
      cases rs with
      | some => rfl
      | none =>
        have := none_last _ hs
        cases c <;> first | rfl | (cases c' <;> simp_all [BuilderCall.SameOption, BuilderCall.style?, BuilderCall.leadingIndent?, BuilderCall.indentBy?, BuilderCall.context?])
    · rw [run_formatters, run_formatters]
      cases c <;> first | rfl | (cases c' <;> simp_all [BuilderCall.SameOption, BuilderCall.style?, BuilderCall.leadingIndent?, BuilderCall.indentBy?, BuilderCall.context?])
    · rw [run_indent _ hi, run_indent _ hi]
      cases ri with
      | some => rfl
      | none =>
        have := none_last _ hi
        cases c <;> first | rfl | (cases c' <;> simp_all [BuilderCall.SameOption, BuilderCall.style?, BuilderCall.leadingIndent?, BuilderCall.indentBy?, BuilderCall.context?])
    · rw [run_leading _ hl, run_leading _ hl]
      cases rl with
      | some => rfl
      | none =>
        have := none_last _ hl
        cases c <;> first | rfl | (cases c' <;> simp_all [BuilderCall.SameOption, BuilderCall.style?, BuilderCall.leadingIndent?, BuilderCall.indentBy?, BuilderCall.context?])
    · rw [run_context _ hc, run_context _ hc]
      cases rc with
      | some => rfl
      | none =>
        have := none_last _ hc
        cases c <;> first | rfl | (cases c' <;> simp_all [BuilderCall.SameOption, BuilderCall.style?, BuilderCall.leadingIndent?, BuilderCall.indentBy?, BuilderCall.context?])
  unfold Builder.after
  simp only [List.foldl_append, List.foldl_cons, key]

example : (BuilderCall.compact : BuilderCall Unit Str).SameOption .pretty ∧ (BuilderCall.indentBy [] : BuilderCall Unit Str).SameOption (.indentBy ['-']) :=
  ⟨.inl ⟨rfl, rfl⟩, .inr (.inr (.inl ⟨rfl, rfl⟩))⟩

/-- C95: the order of two calls is immaterial, unless they choose the same option or both add a formatter. -/
theorem C95_order (wr : Writer W) (before after : List (BuilderCall T W)) (c c' : BuilderCall T W) (h : ¬ c.SameOption c')
    (hf : ¬ (c.formatter?.isSome ∧ c'.formatter?.isSome)) (v : Value T) (w : W) :
    (Builder.after wr (before ++ c :: c' :: after)).write u v w = (Builder.after wr (before ++ c' :: c :: after)).write u v w := by
  have key : ∀ b : Builder T W, c'.run (c.run b) = c.run (c'.run b) := by
    intro b
    cases c <;> cases c' <;> first | rfl | simp [BuilderCall.SameOption, BuilderCall.style?, BuilderCall.leadingIndent?, BuilderCall.indentBy?, BuilderCall.context?,
      BuilderCall.formatter?] at h hf
  unfold Builder.after
  simp only [List.foldl_append, List.foldl_cons, key]

/-- C95: unless the last choice of style is `pretty`, choices of indents have no effect. -/
theorem C95_indents (calls : List (FmtCall T)) (r : Option Style)
    (hl : Last (fun | .compact => some Style.compact | .pretty => some (.pretty 0) | _ => none) calls r) (hr : r ≠ some (.pretty 0)) (v : Value T) :
    (Builder.after stringWriter (calls.map (FmtCall.call stringWriter))).toString u v =
      (Builder.after stringWriter ((calls.filter fun | .leadingIndent _ => false | .indentBy _ => false | _ => true).map (FmtCall.call stringWriter))).toString u v := by
  obtain ⟨o, ho⟩ := inEffect_exists calls
  have hfilter : ∀ {β : Type} {f : FmtCall T → Option β} {r : Option β} (_ : ∀ s, f (.leadingIndent s) = none) (_ : ∀ s, f (.indentBy s) = none), Last f calls r →
      Last f (calls.filter fun | .leadingIndent _ => false | .indentBy _ => false | _ => true) r := by
    intro β f r h1 h2 h
    cases h with
    | never h => exact .never (fun a ha => h a (List.mem_filter.1 ha).1)
    | @«at» before a after b h h' =>
      rw [List.filter_append, List.filter_cons]
      cases a <;> first | (rw [h1] at h; cases h) | (rw [h2] at h; cases h) | exact .at h (fun x hx => h' x (List.mem_filter.1 hx).1)
  have ho0 := ho
  obtain ⟨⟨s, hs, es⟩, -, -, hp, ef⟩ := ho
  let o' : FmtOpts T := ⟨o.style, [' ', ' '], [], o.formatters, o.context⟩
  have ho' : InEffect (calls.filter fun | .leadingIndent _ => false | .indentBy _ => false | _ => true) o' := by
    refine ⟨⟨s, hfilter (fun _ => rfl) (fun _ => rfl) hs, es⟩, ⟨none, .never ?_, rfl⟩, ⟨none, .never ?_, rfl⟩, hfilter (fun _ => rfl) (fun _ => rfl) hp, ?_⟩
    · intro a ha; have := (List.mem_filter.1 ha).2; cases a <;> first | rfl | cases this
    · intro a ha; have := (List.mem_filter.1 ha).2; cases a <;> first | rfl | cases this
    · rw [List.filterMap_filter]
      simp only [o', ef]
      congr 1
      funext a; cases a <;> rfl
  have hst : ∀ n, o.style ≠ .pretty n := by
    intro n hn
    have e1 := last_fold (step := fun s a => _) (get := id) (fun _ _ => rfl) hs .normal
    have e2 := last_fold (step := fun s a => _) (get := id) (fun _ _ => rfl) hl .normal
    have e : r.getD .normal = s.getD .normal := e2.symm.trans e1
    rw [es, ← e] at hn
    cases hl with
    | never => cases hn
    | @«at» _ a _ b h _ =>
      cases a <;> first | cases h | skip
      · cases hn
      · exact hr rfl
  have h1 := fun t => C95_options (u := u) calls o ho0 v t
  have h2 := fun t => C95_options (u := u) _ o' ho' v t
  have hiff : ∀ t, Shown u o 0 (.val v) t ↔ Shown u o' 0 (.val v) t := fun t =>
    ⟨shown_indent (o := o) (o' := o') rfl rfl rfl hst, shown_indent (o := o') (o' := o) rfl rfl rfl hst⟩
  apply Option.ext
  intro t
  rw [h1, h2, hiff]

example : Last (fun | .compact => some Style.compact | .pretty => some (.pretty 0) | _ => none) [FmtCall.indentBy (T := Unit) ['-'], .pretty, .leadingIndent ['>'], .compact]
    (some .compact) ∧ (some Style.compact ≠ some (.pretty 0)) := ⟨.at (before := [_, _, _]) rfl (by simp), by simp⟩

/-- C95: formatters are asked in the order in which they were added, among whatever other calls: when those added before decline and write
nothing, the first to accept decides. (Contexts are not printed here.) -/
theorem C95_formatter_order (wr : Writer W) (before after : List (BuilderCall T W)) (f : CustomFormatter T W) (v : Value T) (w w' : W) (r : Bool)
    (hc : ∀ c ∈ before ++ after, c.context? = none) (hbefore : ∀ g, .addCustomFormatter g ∈ before → g v w = (none, w)) (hf : f v w = (some r, w')) :
    (Builder.after wr (before ++ .addCustomFormatter f :: after)).write u v w = (r, w') := by
  refine C17_first_accepting _ (before.filterMap BuilderCall.formatter?) (after.filterMap BuilderCall.formatter?) f ?_ ?_ v w w' r ?_ hf
  · unfold Builder.after
    rw [run_formatters]
    simp [Builder.new, BuilderCall.formatter?]
  · unfold Builder.after
    rw [run_context (r := none) _ (.never ?_)]
    · rfl
    · intro a ha
      simp only [List.mem_append, List.mem_cons] at ha hc
      rcases ha with ha | rfl | ha
      · exact hc a (.inl ha)
      · rfl
      · exact hc a (.inr ha)
  · intro g hg
    obtain ⟨c, hcm, hcg⟩ := List.mem_filterMap.1 hg
    cases c <;> cases hcg
    exact hbefore g hcm

/-- C95: custom parsers are asked in the order in which they were added, from the empty list: the first to answer decides, before any
built-in syntax. -/
theorem C95_parser_order (before after : List CustomParser) (p : CustomParser) (s s' : Str) (r : Except ParseError (Value Unit))
    (hb : ∀ q ∈ before, q s = (none, s)) (hp : p s = (some r, s')) :
    (FromStrBuilder.after (before ++ p :: after)).parse u s = some (r, match r with | .ok _ => s.drop (utf8Len s - utf8Len s') | .error _ => s) := by
  rw [FromStrBuilder.parse, parsers_after]
  exact C14_first_answer_wins before after p s s' r hb hp

example : (FromStrBuilder.after [fun s => (none, s), dollar, fun s => (some (.ok (.bool false)), s)]).parse .ascii "$ 1".toList =
    some (.ok (.bool true), " 1".toList) := C95_parser_order [_] [_] dollar _ " 1".toList (.ok (.bool true)) (by simp) rfl

/-- C95: a builder without added parsers, and one all of whose parsers decline, parses what `from_str` parses. -/
theorem C95_parser_none (ps : List CustomParser) (h : ∀ p ∈ ps, ∀ s, p s = (none, s)) (s : Str) : (FromStrBuilder.after ps).parse u s = fromStr u s := by
  rw [FromStrBuilder.parse, parsers_after]
  induction ps with
  | nil => rfl
  | cons p ps ih =>
    have := C14_declining_is_noop (u := u) [] ps p (h p (by simp)) s
    exact this.trans (ih (fun q hq => h q (by simp [hq])))

end SV
