import Verif.Spec.Builders
/-
Lemmas about histories of calls on the builders.
-/
namespace SV

variable {T W α β σ : Type}

theorem snoc_ind {P : List α → Prop} (h0 : P []) (hs : ∀ l a, P l → P (l ++ [a])) (l : List α) : P l := by
  rw [← l.reverse_reverse]
  induction l.reverse with
  | nil => exact h0
  | cons a l ih => rw [List.reverse_cons]; exact hs _ _ ih

theorem last_snoc {f : α → Option β} {l : List α} {r : Option β} (a : α) (h : Last f l r) : Last f (l ++ [a]) ((f a).or r) := by
  cases hf : f a with
  | some b =>
    have : Last f (l ++ a :: []) (some b) := .at hf (by simp)
    simpa using this
  | none =>
    cases h with
    | never h => exact .never (by intro x hx; rcases List.mem_append.1 hx with hx | hx <;> simp_all)
    | @«at» before a' after b h hl =>
      have : Last f (before ++ a' :: (after ++ [a])) (some b) := .at h (by intro x hx; rcases List.mem_append.1 hx with hx | hx <;> simp_all)
      simpa using this

theorem last_exists (f : α → Option β) (l : List α) : ∃ r, Last f l r := by
  induction l using snoc_ind with
  | h0 => exact ⟨none, .never (by simp)⟩
  | hs l a ih => obtain ⟨r, h⟩ := ih; exact ⟨_, last_snoc a h⟩

theorem fold_same {step : σ → α → σ} {get : σ → β} {f : α → Option β} (h : ∀ s a, get (step s a) = (f a).getD (get s)) {l : List α}
    (hl : ∀ a ∈ l, f a = none) (s : σ) : get (l.foldl step s) = get s := by
  induction l generalizing s with
  | nil => rfl
  | cons a l ih =>
    rw [List.foldl_cons, ih (fun x hx => hl x (by simp [hx])), h, hl a (by simp)]
    rfl

theorem last_fold {step : σ → α → σ} {get : σ → β} {f : α → Option β} (h : ∀ s a, get (step s a) = (f a).getD (get s)) {l : List α} {r : Option β}
    (hl : Last f l r) (s : σ) : get (l.foldl step s) = r.getD (get s) := by
  cases hl with
  | never hl => exact fold_same h hl s
  | «at» hf hl =>
    rw [List.foldl_append, List.foldl_cons, fold_same h hl, h, hf]
    rfl

theorem run_wr (b : Builder T W) (l : List (BuilderCall T W)) : (l.foldl BuilderCall.run b).wr = b.wr := by
  induction l generalizing b with
  | nil => rfl
  | cons a l ih => rw [List.foldl_cons, ih]; cases a <;> rfl

theorem run_formatters (b : Builder T W) (l : List (BuilderCall T W)) :
    (l.foldl BuilderCall.run b).customFormatters = b.customFormatters ++ l.filterMap BuilderCall.formatter? := by
  induction l generalizing b with
  | nil => simp
  | cons a l ih =>
    rw [List.foldl_cons, ih]
    cases a <;> simp [List.filterMap_cons, BuilderCall.run, BuilderCall.formatter?, Builder.compact, Builder.pretty, Builder.setLeadingIndent, Builder.setIndentBy,
      Builder.formatContext, Builder.addCustomFormatter]

theorem run_style (b : Builder T W) {l : List (BuilderCall T W)} {r} (h : Last BuilderCall.style? l r) : (l.foldl BuilderCall.run b).style = r.getD b.style :=
  last_fold (get := Builder.style) (by intro s a; cases a <;> rfl) h b

theorem run_leading (b : Builder T W) {l : List (BuilderCall T W)} {r} (h : Last BuilderCall.leadingIndent? l r) :
    (l.foldl BuilderCall.run b).leadingIndent = r.getD b.leadingIndent :=
  last_fold (get := Builder.leadingIndent) (by intro s a; cases a <;> rfl) h b

theorem run_indent (b : Builder T W) {l : List (BuilderCall T W)} {r} (h : Last BuilderCall.indentBy? l r) :
    (l.foldl BuilderCall.run b).indentBy = r.getD b.indentBy :=
  last_fold (get := Builder.indentBy) (by intro s a; cases a <;> rfl) h b

theorem run_context (b : Builder T W) {l : List (BuilderCall T W)} {r} (h : Last BuilderCall.context? l r) :
    (l.foldl BuilderCall.run b).printContext = r.or b.printContext := by
  cases h with
  | never h =>
    rw [Option.none_or]
    induction l generalizing b with
    | nil => rfl
    | cons a l ih =>
      rw [List.foldl_cons, ih _ (fun x hx => h x (by simp [hx]))]
      have := h a (by simp)
      cases a <;> first | rfl | cases this
  | @«at» before a after p hp hl =>
    rw [List.foldl_append, List.foldl_cons]
    generalize List.foldl BuilderCall.run b before = b'
    have : ∀ (b : Builder T W), (after.foldl BuilderCall.run b).printContext = b.printContext := by
      clear hp
      induction after with
      | nil => intro b; rfl
      | cons a l ih =>
        intro b
        rw [List.foldl_cons, ih (fun x hx => hl x (by simp [hx]))]
        have := hl a (by simp)
        cases a <;> first | rfl | cases this
    rw [this]
    cases a <;> first | cases hp | skip
    rfl

theorem builder_ext {b b' : Builder T W} (h0 : b.wr = b'.wr) (h1 : b.style = b'.style) (h2 : b.customFormatters = b'.customFormatters) (h3 : b.indentBy = b'.indentBy)
    (h4 : b.leadingIndent = b'.leadingIndent) (h5 : b.printContext = b'.printContext) : b = b' := by
  cases b; cases b'; simp_all

theorem last_map {f : β → Option σ} {g : α → β} {l : List α} {r : Option σ} (h : Last (f ∘ g) l r) : Last f (l.map g) r := by
  cases h with
  | never h => exact .never (by simpa using h)
  | «at» h hl => rw [List.map_append, List.map_cons]; exact .at h (by simpa using hl)

theorem last_comp {f : α → Option β} {k : β → σ} {l : List α} {r : Option β} (h : Last f l r) : Last (fun a => (f a).map k) l (r.map k) := by
  cases h with
  | never h => exact .never (by intro a ha; simp [h a ha])
  | «at» h hl => exact .at (by simp [h]) (by intro a ha; simp [hl a ha])

theorem last_congr {f g : α → Option β} (h : ∀ a, f a = g a) {l : List α} {r : Option β} (hl : Last f l r) : Last g l r := by
  rw [← show f = g from funext h]; exact hl

theorem inEffect_exists (calls : List (FmtCall T)) : ∃ o, InEffect calls o := by
  obtain ⟨s, hs⟩ := last_exists (fun c : FmtCall T => match c with | .compact => some Style.compact | .pretty => some (.pretty 0) | _ => none) calls
  obtain ⟨i, hi⟩ := last_exists (fun c : FmtCall T => match c with | .indentBy s => some s | _ => none) calls
  obtain ⟨l, hl⟩ := last_exists (fun c : FmtCall T => match c with | .leadingIndent s => some s | _ => none) calls
  obtain ⟨p, hp⟩ := last_exists (fun c : FmtCall T => match c with | .formatContext p => some p | _ => none) calls
  exact ⟨⟨s.getD .normal, i.getD [' ', ' '], l.getD [], _, p⟩, ⟨⟨s, hs, rfl⟩, ⟨i, hi, rfl⟩, ⟨l, hl, rfl⟩, hp, rfl⟩⟩

theorem inEffect_builder {calls : List (FmtCall T)} {o : FmtOpts T} (h : InEffect calls o) (wr : Writer W) :
    Builder.after wr (calls.map (FmtCall.call wr)) = o.builder wr := by
  obtain ⟨⟨s, hs, es⟩, ⟨i, hi, ei⟩, ⟨l, hl, el⟩, hp, ef⟩ := h
  unfold Builder.after
  apply builder_ext
  · rw [run_wr]; rfl
  · rw [run_style _ (last_map (last_congr (by intro a; cases a <;> rfl) hs))]; exact es.symm
  · rw [run_formatters]
    simp only [Builder.new, FmtOpts.builder, List.nil_append, List.filterMap_map, ef, List.map_filterMap]
    congr 1
    funext a; cases a <;> rfl
  · rw [run_indent _ (last_map (last_congr (by intro a; cases a <;> rfl) hi))]; exact ei.symm
  · rw [run_leading _ (last_map (last_congr (by intro a; cases a <;> rfl) hl))]; exact el.symm
  · have := last_map (f := BuilderCall.context?) (g := FmtCall.call wr)
      (last_congr (by intro a; cases a <;> rfl) (last_comp (k := fun (p : T → List Str) => (fun c w => runWrites wr (p c) w : ContextPrinter T W)) hp))
    rw [run_context _ this]
    simp [Builder.new, FmtOpts.builder]

/-- Indents take part in nothing but the lines of pretty style. -/
theorem shown_indent {u : Uni} {o o' : FmtOpts T} (hs : o.style = o'.style) (hf : o.formatters = o'.formatters) (hc : o.context = o'.context)
    (hp : ∀ n, o.style ≠ .pretty n) {d : Nat} {c : ShowCat T} {s : Str} (h : Shown u o d c s) : Shown u o' d c s := by
  have e1 : ∀ v, o.custom v = o'.custom v := by intro v; simp [FmtOpts.custom, hf]
  have e2 : ∀ x, o.before x = o'.before x := by intro x; simp [FmtOpts.before, hc]
  have e3 : o.space = o'.space := by unfold FmtOpts.space; rw [← hs]
  have e4 : ∀ d, o.line d = o'.line d := by
    intro d; unfold FmtOpts.line; rw [← hs]
    cases h : o.style with
    | pretty n => exact absurd h (hp n)
    | _ => rfl
  have e5 : ∀ d, o.gap d = o'.gap d := by
    intro d; unfold FmtOpts.gap; rw [← hs]
    cases h : o.style with
    | pretty n => exact absurd h (hp n)
    | _ => rfl
  induction h with
  | custom h => rw [e2]; exact .custom (e1 _ ▸ h)
  | default hn _ ih => rw [e2]; exact .default (e1 _ ▸ hn) ih
  | true_ => exact .true_
  | false_ => exact .false_
  | char h => exact .char h
  | string h => exact .string h
  | unsigned => exact .unsigned
  | nonneg h => exact .nonneg h
  | negative h hm => exact .negative h hm
  | bits => exact .bits
  | composite _ ih => exact .composite ih
  | variant hn _ ih => rw [e3]; exact .variant hn ih
  | namedEmpty => exact .namedEmpty
  | unnamedEmpty => exact .unnamedEmpty
  | named _ ih => rw [e5, e5]; exact .named ih
  | unnamed _ ih => rw [e4, e4]; exact .unnamed ih
  | field1 hn _ ih => rw [e3]; exact .field1 hn ih
  | fieldCons hn _ _ ih1 ih2 => rw [e3, e5]; exact .fieldCons hn ih1 ih2
  | val1 _ ih => exact .val1 ih
  | valCons _ _ ih1 ih2 => rw [e5]; exact .valCons ih1 ih2

theorem parsers_fold (b : FromStrBuilder) (ps : List CustomParser) : (ps.foldl FromStrBuilder.addCustomParser b).customParsers = b.customParsers ++ ps := by
  induction ps generalizing b with
  | nil => simp
  | cons p ps ih => rw [List.foldl_cons, ih]; simp [FromStrBuilder.addCustomParser]

theorem parsers_after (ps : List CustomParser) : (FromStrBuilder.after ps).customParsers = ps := by
  rw [FromStrBuilder.after, parsers_fold]; rfl

end SV
