import Verif.Spec.Asks
import Verif.Spec.Size
import Verif.Spec.Format
/-
What is asked while a value is written.
-/
namespace SV

variable {T W : Type}

/-- `a'` does as `a` and records something of `P`, or a beginning of it if it fails; only the last of it can be a failure, and if so it fails; it fails for no other reason than this and `E`. -/
def Rec (a : FM W) (a' : FM (W × List (Asked T))) (P : List (Asked T) → Prop) (E : Prop) : Prop := ∀ w l st, ∃ m,
  a' ⟨(w, l), st⟩ = ((a ⟨w, st⟩).1, ⟨((a ⟨w, st⟩).2.writer, l ++ m), (a ⟨w, st⟩).2.style⟩) ∧ ((a ⟨w, st⟩).1 = true → P (m.filter Asked.user)) ∧ (∃ k, P (m.filter Asked.user ++ k)) ∧
    ((a ⟨w, st⟩).1 = true → ∀ x ∈ m, x.failed = false) ∧ (∀ x ∈ m.dropLast, x.failed = false) ∧
    ((a ⟨w, st⟩).1 = false → (∃ x, m.getLast? = some x ∧ x.failed = true) ∨ E)

/-- Nothing but writes. -/
abbrev Quiet (a : FM W) (a' : FM (W × List (Asked T))) : Prop := Rec a a' (· = []) False

theorem Rec.imp {a : FM W} {a' : FM (W × List (Asked T))} {P Q : List (Asked T) → Prop} {E F : Prop} (h : Rec a a' P E) (hpq : ∀ l, P l → Q l) (hef : E → F) : Rec a a' Q F := by
  intro w l st
  obtain ⟨m, h1, h2, ⟨k, h3⟩, h4, h5, h6⟩ := h w l st
  exact ⟨m, h1, fun h => hpq _ (h2 h), ⟨k, hpq _ h3⟩, h4, h5, fun h => (h6 h).imp_right hef⟩

theorem dropLast_ok {α : Type} {p : α → Prop} : ∀ {m m' : List α}, (∀ x ∈ m, p x) → (∀ x ∈ m'.dropLast, p x) → ∀ x ∈ (m ++ m').dropLast, p x := by
  intro m m' h h' x hx
  cases m' with
  | nil =>
    rw [List.append_nil] at hx
    exact h x (List.dropLast_subset _ hx)
  | cons y ys =>
    rw [List.dropLast_append_of_ne_nil (by simp)] at hx
    rcases List.mem_append.1 hx with hx | hx
    · exact h x hx
    · exact h' x hx

theorem last_append {α : Type} {p : α → Prop} (m m' : List α) (h : ∃ x, m'.getLast? = some x ∧ p x) : ∃ x, (m ++ m').getLast? = some x ∧ p x := by
  obtain ⟨x, h1, h2⟩ := h
  exact ⟨x, by rw [List.getLast?_append, h1]; rfl, h2⟩

theorem rec_seq {a b : FM W} {a' b' : FM (W × List (Asked T))} {P Q : List (Asked T) → Prop} {E F : Prop} (ha : Rec a a' P E) (hb : Rec b b' Q F) :
    Rec (a >>> b) (a' >>> b') (fun l => ∃ x y, l = x ++ y ∧ P x ∧ Q y) (E ∨ F) := by
  intro w l st
  obtain ⟨m, h1, h2, ⟨k, h3⟩, h4, h5, h6⟩ := ha w l st
  unfold FM.andThen
  rw [h1]
  rcases hx : a ⟨w, st⟩ with ⟨r, ⟨w', st'⟩⟩
  rw [hx] at h2 h4 h6
  cases r with
  | true =>
    obtain ⟨m', h1', h2', ⟨k', h3'⟩, h4', h5', h6'⟩ := hb w' (l ++ m) st'
    dsimp only
    rw [h1', List.append_assoc]
    refine ⟨m ++ m', rfl, fun h => ⟨_, _, by simp, h2 rfl, h2' h⟩, ⟨k', m.filter Asked.user, m'.filter Asked.user ++ k', by simp, h2 rfl, h3'⟩, fun h x hx => ?_, dropLast_ok (h4 rfl) h5', fun h => ?_⟩
    · rcases List.mem_append.1 hx with hx | hx
      · exact h4 rfl x hx
      · exact h4' h x hx
    · rcases h6' h with h | h
      · exact .inl (last_append m m' h)
      · exact .inr (.inr h)
  | false =>
    obtain ⟨m', -, -, ⟨k', h3'⟩, -⟩ := hb w l st
    exact ⟨m, rfl, (fun h => by cases h), ⟨k ++ (m'.filter Asked.user ++ k'), m.filter Asked.user ++ k, m'.filter Asked.user ++ k', by simp, h3, h3'⟩, (fun h => by cases h), h5,
      fun _ => (h6 rfl).imp_right .inl⟩

theorem quiet_seq {a b : FM W} {a' b' : FM (W × List (Asked T))} {Q : List (Asked T) → Prop} {E : Prop} (ha : Quiet a a') (hb : Rec b b' Q E) : Rec (a >>> b) (a' >>> b') Q E :=
  (rec_seq ha hb).imp (by rintro l ⟨x, y, rfl, rfl, h⟩; exact h) (by simp)

theorem seq_quiet {a b : FM W} {a' b' : FM (W × List (Asked T))} {P : List (Asked T) → Prop} {E : Prop} (ha : Rec a a' P E) (hb : Quiet b b') : Rec (a >>> b) (a' >>> b') P E :=
  (rec_seq ha hb).imp (by rintro l ⟨x, y, rfl, h, rfl⟩; simpa using h) (by simp)

theorem quiet_ok : Quiet (T := T) (FM.ok : FM W) FM.ok := fun _ _ _ => ⟨[], by simp [FM.ok], fun _ => rfl, ⟨[], rfl⟩, by simp, by simp, by simp [FM.ok]⟩
theorem rec_err : Rec (T := T) (FM.err : FM W) FM.err (· = []) True := fun _ _ _ => ⟨[], by simp [FM.err], fun _ => rfl, ⟨[], rfl⟩, by simp, by simp, fun _ => .inr trivial⟩
theorem quiet_write (b : Builder T W) (s : Str) : Quiet (T := T) (writeStr b s) (writeStr b.recording s) := fun w _ _ =>
  ⟨[.wr s (b.wr s w).1], by simp [writeStr, Builder.recording], fun _ => rfl, ⟨[], rfl⟩, by simp [writeStr, Asked.failed], by simp, by simp [writeStr, Asked.failed]⟩
theorem quiet_indent : Quiet (T := T) (indentStep : FM W) indentStep := fun _ _ _ => ⟨[], by simp [indentStep], fun _ => rfl, ⟨[], rfl⟩, by simp, by simp, by simp [indentStep]⟩
theorem quiet_unindent : Quiet (T := T) (unindentStep : FM W) unindentStep := fun _ _ _ => ⟨[], by simp [unindentStep], fun _ => rfl, ⟨[], rfl⟩, by simp, by simp, by simp [unindentStep]⟩

theorem quiet_indents (b : Builder T W) : ∀ n, Quiet (T := T) (writeIndents b n) (writeIndents b.recording n)
  | 0 => quiet_ok
  | n + 1 => quiet_seq (quiet_write b _) (quiet_indents b n)

theorem quiet_writeNewline (b : Builder T W) (n : Nat) : Quiet (T := T) (writeNewline b n) (writeNewline b.recording n) :=
  quiet_seq (quiet_write b _) (quiet_seq (quiet_write b _) (quiet_indents b n))

theorem quiet_space (b : Builder T W) : Quiet (T := T) (space b) (space b.recording) := by
  intro w l st
  unfold space
  cases st with
  | compact => exact quiet_ok w l .compact
  | normal => exact quiet_write b _ w l .normal
  | pretty n => exact quiet_write b _ w l (.pretty n)

theorem quiet_newline (b : Builder T W) : Quiet (T := T) (newline b) (newline b.recording) := by
  intro w l st
  unfold newline
  cases st with
  | compact => exact quiet_ok w l .compact
  | normal => exact quiet_ok w l .normal
  | pretty n => exact quiet_writeNewline b n w l (.pretty n)

theorem quiet_separator (b : Builder T W) : Quiet (T := T) (itemSeparator b) (itemSeparator b.recording) := by
  intro w l st
  unfold itemSeparator
  cases st with
  | compact => exact quiet_ok w l .compact
  | normal => exact quiet_write b _ w l .normal
  | pretty n => exact quiet_writeNewline b n w l (.pretty n)

theorem quiet_escaped (b : Builder T W) (c : Char) : Quiet (T := T) (writeEscaped b c) (writeEscaped b.recording c) := by
  unfold writeEscaped
  cases toEscapeCode c with
  | none => exact quiet_write b _
  | some e => exact quiet_seq (quiet_write b _) (quiet_write b _)

theorem quiet_chars (b : Builder T W) : ∀ s, Quiet (T := T) (writeChars b s) (writeChars b.recording s)
  | [] => quiet_ok
  | c :: s => quiet_seq (quiet_escaped b c) (quiet_chars b s)

theorem quiet_string (b : Builder T W) (s : Str) : Quiet (T := T) (fmtString b s) (fmtString b.recording s) :=
  quiet_seq (quiet_write b _) (quiet_seq (quiet_chars b s) (quiet_write b _))

theorem quiet_bits (b : Builder T W) : ∀ s, Quiet (T := T) (writeBits b s) (writeBits b.recording s)
  | [] => quiet_ok
  | true :: s => quiet_seq (quiet_write b _) (quiet_bits b s)
  | false :: s => quiet_seq (quiet_write b _) (quiet_bits b s)

/-- A 256 bit number. -/
def Primitive.big : Primitive → Prop
  | .u256 _ => True
  | .i256 _ => True
  | _ => False

theorem rec_primitive (b : Builder T W) (p : Primitive) : Rec (T := T) (fmtPrimitive b p) (fmtPrimitive b.recording p) (· = []) p.big := by
  cases p with
  | bool x => cases x <;> exact quiet_write b _
  | char c => exact quiet_seq (quiet_write b _) (quiet_seq (quiet_escaped b c) (quiet_write b _))
  | string s => exact quiet_string b s
  | u128 n => exact quiet_write b _
  | i128 n =>
    show Quiet (writeI128 b n) (writeI128 b.recording n)
    unfold writeI128
    split
    · exact quiet_seq (quiet_write b _) (quiet_write b _)
    · exact quiet_write b _
  | u256 x => exact rec_err
  | i256 x => exact rec_err

/-- What is asked about a context. -/
def ctxAsk (b : Builder T W) (c : T) (ok : Bool) : List (Asked T) := if b.printContext.isSome then [.ctx c ok] else []

theorem rec_context (b : Builder T W) (c : T) : Rec (fmtContext b c) (fmtContext b.recording c) (fun l => ∃ ok, l = ctxAsk b c ok) False := by
  unfold fmtContext ctxAsk
  cases hp : b.printContext with
  | none =>
    have : b.recording.printContext = none := by simp [Builder.recording, hp]
    rw [this]
    exact quiet_ok.imp (by rintro l rfl; exact ⟨true, rfl⟩) id
  | some p =>
    have : b.recording.printContext = some (fun c w => ((p c w.1).1, ((p c w.1).2, w.2 ++ [.ctx c (p c w.1).1]))) := by simp [Builder.recording, hp]
    rw [this]
    refine quiet_seq (quiet_write b _) (seq_quiet ?_ (quiet_write b _))
    intro w l st
    exact ⟨[.ctx c (p c w).1], rfl, fun _ => ⟨_, rfl⟩, ⟨[], _, rfl⟩, by simp [Asked.failed], by simp, by simp [Asked.failed]⟩

/-- One recording formatter. -/
def recFormatter (i : Nat) (f : CustomFormatter T W) : CustomFormatter T (W × List (Asked T)) :=
  fun v w => ((f v w.1).1, ((f v w.1).2, w.2 ++ [.fmt i v (f v w.1).1]))

theorem run_recording (v : Value T) : ∀ (fs : List (CustomFormatter T W)) (k : Nat) (w : W) (l : List (Asked T)), ∃ m,
    runFormatters (fs.mapIdx (fun i f => recFormatter (k + i) f)) v (w, l) = ((runFormatters fs v w).1, ((runFormatters fs v w).2, l ++ m)) ∧
    (((runFormatters fs v w).1 = none ∧ m = (List.range' k fs.length).map (fun j => .fmt j v none)) ∨
      (∃ r, (runFormatters fs v w).1 = some r ∧ ∃ i, i < fs.length ∧ m = (List.range' k i).map (fun j => .fmt j v none) ++ [.fmt (k + i) v (some r)]))
  | [], k, w, l => ⟨[], by simp [runFormatters], .inl ⟨rfl, rfl⟩⟩
  | f :: fs, k, w, l => by
    rw [List.mapIdx_cons]
    have hr : recFormatter (k + 0) f v (w, l) = ((f v w).1, ((f v w).2, l ++ [.fmt k v (f v w).1])) := rfl
    unfold runFormatters
    rw [hr]
    rcases hx : f v w with ⟨r, w'⟩
    cases r with
    | some r => exact ⟨[.fmt k v (some r)], rfl, .inr ⟨r, rfl, 0, by simp, by simp⟩⟩
    | none =>
      obtain ⟨m, h1, h2⟩ := run_recording v fs (k + 1) w' (l ++ [.fmt k v none])
      have e : (fs.mapIdx fun i f => recFormatter (T := T) (k + (i + 1)) f) = fs.mapIdx fun i f => recFormatter (k + 1 + i) f := by
        congr 1; funext i f; congr 1; omega
      refine ⟨.fmt k v none :: m, ?_, ?_⟩
      · show runFormatters (fs.mapIdx fun i f => recFormatter (k + (i + 1)) f) v (w', l ++ [.fmt k v none]) = _
        rw [e, h1, List.append_assoc]
        rfl
      · rcases h2 with ⟨h2, rfl⟩ | ⟨r, h2, i, hi, rfl⟩
        · exact .inl ⟨h2, by simp [List.range'_succ]⟩
        · exact .inr ⟨r, h2, i + 1, by simpa using hi, by simp [List.range'_succ]; omega⟩

theorem recording_formatters (b : Builder T W) : b.recording.customFormatters = b.customFormatters.mapIdx (fun i f => recFormatter (0 + i) f) := by
  unfold Builder.recording recFormatter
  simp

theorem user_declined (v : Value T) (l : List Nat) : (l.map (fun j => Asked.fmt j v none)).filter Asked.user = l.map (fun j => .fmt j v none) := by
  rw [List.filter_eq_self]
  simp [Asked.user]

theorem ok_declined (v : Value T) (l : List Nat) : ∀ x ∈ l.map (fun j => Asked.fmt j v none), x.failed = false := by
  simp [Asked.failed]

section
variable (u : Uni) (b : Builder T W)

/-- The values in something. -/
def ValueDef.inner : ValueDef T → List (Value T)
  | .composite (.named fs) => fs.map (fun p => p.2)
  | .composite (.unnamed vs) => vs
  | .variant (.mk _ (.named fs)) => fs.map (fun p => p.2)
  | .variant (.mk _ (.unnamed vs)) => vs
  | _ => []

theorem children_inner (d : ValueDef T) (c : T) : (Value.mk d c).children = d.inner := by
  match d with
  | .composite (.named fs) => rfl
  | .composite (.unnamed vs) => rfl
  | .variant (.mk _ (.named fs)) => rfl
  | .variant (.mk _ (.unnamed vs)) => rfl
  | .primitive _ => rfl
  | .bitSequence _ => rfl

/-- What is asked for several values. -/
abbrev RecAll (b : Builder T W) (a : FM W) (a' : FM (W × List (Asked T))) (vs : List (Value T)) : Prop :=
  Rec a a' (AsksAll b.customFormatters.length b.printContext.isSome vs) (∃ v ∈ vs, Has256 v)

theorem recAll_quiet {b : Builder T W} {a : FM W} {a' : FM (W × List (Asked T))} (h : Quiet a a') : RecAll b a a' [] := h.imp (by rintro l rfl; exact .nil) False.elim

theorem recValue (d : ValueDef T) (c : T) (hd : Rec (fmtValueDef u b d) (fmtValueDef u b.recording d) (AsksAll b.customFormatters.length b.printContext.isSome d.inner) (Has256 (.mk d c))) :
    Rec (fmtValue u b (.mk d c)) (fmtValue u b.recording (.mk d c)) (Asks b.customFormatters.length b.printContext.isSome (.mk d c)) (Has256 (.mk d c)) := by
  rw [fmtValue, fmtValue]
  refine (rec_seq (F := Has256 (.mk d c)) (Q := fun l => (∃ i r, i < b.customFormatters.length ∧ l = (List.range i).map (fun j => .fmt j (.mk d c) none) ++ [.fmt i (.mk d c) (some r)]) ∨
    ∃ m, AsksAll b.customFormatters.length b.printContext.isSome d.inner m ∧ l = (List.range b.customFormatters.length).map (fun j => .fmt j (.mk d c) none) ++ m)
    (rec_context b c) ?_).imp ?_ (by simp)
  · intro w l st
    dsimp only
    rw [recording_formatters]
    obtain ⟨m, h1, h2⟩ := run_recording (.mk d c) b.customFormatters 0 w l
    rw [h1]
    rcases hx : runFormatters b.customFormatters (.mk d c) w with ⟨r, w'⟩
    rw [hx] at h2
    rcases h2 with ⟨h2, rfl⟩ | ⟨r, h2, i, hi, rfl⟩
    · dsimp only at h2
      subst h2
      obtain ⟨m, h3, h4, ⟨k, h5⟩, h6, h7, h8⟩ := hd w' (l ++ (List.range' 0 b.customFormatters.length).map (fun j => .fmt j (.mk d c) none)) st
      dsimp only
      rw [h3, List.append_assoc, ← List.range_eq_range']
      refine ⟨_, rfl, fun h => .inr ⟨_, h4 h, ?_⟩, ⟨k, .inr ⟨_, h5, ?_⟩⟩, fun h x hx => ?_, dropLast_ok (ok_declined _ _) h7, fun h => (h8 h).imp_left (last_append _ _)⟩
      · rw [List.filter_append, user_declined]
      · rw [List.filter_append, user_declined, List.append_assoc]
      · rcases List.mem_append.1 hx with hx | hx
        · exact ok_declined _ _ x hx
        · exact h6 h x hx
    · dsimp only at h2
      subst h2
      dsimp only
      rw [← List.range_eq_range', Nat.zero_add]
      have e : ((List.range i).map (fun j => Asked.fmt j (.mk d c) none) ++ [Asked.fmt i (.mk d c) (some r)]).filter Asked.user =
          (List.range i).map (fun j => Asked.fmt j (.mk d c) none) ++ [Asked.fmt i (.mk d c) (some r)] := by
        rw [List.filter_append, user_declined]; rfl
      refine ⟨_, rfl, fun _ => .inl ⟨i, r, hi, e⟩, ⟨[], .inl ⟨i, r, hi, by rw [e, List.append_nil]⟩⟩, fun h x hx => ?_, dropLast_ok (ok_declined _ _) (by simp), fun h => .inl (last_append _ _ ⟨_, rfl, by subst h; rfl⟩)⟩
      rcases List.mem_append.1 hx with hx | hx
      · exact ok_declined _ _ x hx
      · rw [List.mem_singleton.1 hx]
        simp [Asked.failed, h]
  · rintro l ⟨x, y, rfl, ⟨ok, rfl⟩, h⟩
    unfold ctxAsk
    rcases h with ⟨i, r, hi, rfl⟩ | ⟨m, hm, rfl⟩
    · exact .took (v := .mk d c) hi
    · refine .left (v := .mk d c) ?_
      rw [children_inner]; exact hm

mutual
theorem rec_value : ∀ (v : Value T), Rec (fmtValue u b v) (fmtValue u b.recording v) (Asks b.customFormatters.length b.printContext.isSome v) (Has256 v)
  | .mk d c => recValue u b d c (rec_def d c)
theorem rec_def : ∀ (d : ValueDef T) (c : T), Rec (fmtValueDef u b d) (fmtValueDef u b.recording d) (AsksAll b.customFormatters.length b.printContext.isSome d.inner) (Has256 (.mk d c))
  | .composite (.named fs), c => by
    rw [fmtValueDef, fmtValueDef]
    refine (rec_comp_named fs).imp (fun _ h => h) ?_
    rintro ⟨v, hv, h⟩
    obtain ⟨p, hp, rfl⟩ := List.mem_map.1 hv
    exact .named hp h
  | .composite (.unnamed vs), c => by
    rw [fmtValueDef, fmtValueDef]
    refine (rec_comp_unnamed vs).imp (fun _ h => h) ?_
    rintro ⟨v, hv, h⟩
    exact .unnamed hv h
  | .variant (.mk n (.named fs)), c => by
    rw [fmtValueDef, fmtValueDef, fmtVariant, fmtVariant]
    refine quiet_seq ?_ (quiet_seq (quiet_space b) ((rec_comp_named fs).imp (fun _ h => h) (by
      rintro ⟨v, hv, h⟩
      obtain ⟨p, hp, rfl⟩ := List.mem_map.1 hv
      exact .vnamed hp h)))
    split
    · exact quiet_write b _
    · exact quiet_seq (quiet_write b _) (quiet_string b _)
  | .variant (.mk n (.unnamed fs)), c => by
    rw [fmtValueDef, fmtValueDef, fmtVariant, fmtVariant]
    refine quiet_seq ?_ (quiet_seq (quiet_space b) ((rec_comp_unnamed fs).imp (fun _ h => h) (by
      rintro ⟨v, hv, h⟩
      exact .vunnamed hv h)))
    split
    · exact quiet_write b _
    · exact quiet_seq (quiet_write b _) (quiet_string b _)
  | .primitive p, c => by
    rw [fmtValueDef, fmtValueDef]
    refine (rec_primitive b p).imp (by rintro l rfl; exact .nil) ?_
    cases p with
    | u256 x => exact fun _ => .u256
    | i256 x => exact fun _ => .i256
    | _ => exact False.elim
  | .bitSequence s, c => by
    rw [fmtValueDef, fmtValueDef]
    exact Rec.imp (quiet_seq (quiet_write b _) (quiet_seq (quiet_bits b s) (quiet_write b _))) (by rintro l rfl; exact .nil) False.elim
theorem rec_comp_named : ∀ (fs : List (Str × Value T)), RecAll b (fmtComposite u b (.named fs)) (fmtComposite u b.recording (.named fs)) (fs.map (fun p => p.2))
  | fs => by
    rw [fmtComposite, fmtComposite]
    split
    · rename_i h
      have : fs = [] := by simpa using h
      subst this
      exact recAll_quiet (quiet_write b _)
    · exact quiet_seq (quiet_write b _) (quiet_seq quiet_indent (quiet_seq (quiet_separator b) (seq_quiet (rec_fields 0 fs)
        (quiet_seq quiet_unindent (quiet_seq (quiet_separator b) (quiet_write b _))))))
theorem rec_comp_unnamed : ∀ (vs : List (Value T)), RecAll b (fmtComposite u b (.unnamed vs)) (fmtComposite u b.recording (.unnamed vs)) vs
  | vs => by
    rw [fmtComposite, fmtComposite]
    split
    · rename_i h
      have : vs = [] := by simpa using h
      subst this
      exact recAll_quiet (quiet_write b _)
    · exact quiet_seq (quiet_write b _) (quiet_seq quiet_indent (quiet_seq (quiet_newline b) (seq_quiet (rec_vals 0 vs)
        (quiet_seq quiet_unindent (quiet_seq (quiet_newline b) (quiet_write b _))))))
theorem rec_fields : ∀ (k : Nat) (fs : List (Str × Value T)), RecAll b (fmtFields u b k fs) (fmtFields u b.recording k fs) (fs.map (fun p => p.2))
  | k, [] => by rw [fmtFields, fmtFields]; exact recAll_quiet quiet_ok
  | k, (n, v) :: r => by
    rw [fmtFields, fmtFields]
    refine quiet_seq ?_ (quiet_seq ?_ (quiet_seq (quiet_write b _) (quiet_seq (quiet_space b) ((rec_seq (rec_value v) (rec_fields (k + 1) r)).imp ?_ (by simp)))))
    · split
      · exact quiet_seq (quiet_write b _) (quiet_separator b)
      · exact quiet_ok
    · split
      · exact quiet_write b _
      · exact quiet_string b _
    · rintro l ⟨x, y, rfl, h1, h2⟩
      exact .cons h1 h2
theorem rec_vals : ∀ (k : Nat) (vs : List (Value T)), RecAll b (fmtVals u b k vs) (fmtVals u b.recording k vs) vs
  | k, [] => by rw [fmtVals, fmtVals]; exact recAll_quiet quiet_ok
  | k, v :: r => by
    rw [fmtVals, fmtVals]
    refine quiet_seq ?_ ((rec_seq (rec_value v) (rec_vals (k + 1) r)).imp ?_ (by simp))
    · split
      · exact quiet_seq (quiet_write b _) (quiet_separator b)
      · exact quiet_ok
    · rintro l ⟨x, y, rfl, h1, h2⟩
      exact .cons h1 h2
end
end

theorem fieldsCount_children : ∀ fs : List (Str × Value T), fieldsCount fs = valuesCount (fs.map (fun p => p.2))
  | [] => by rw [fieldsCount]; rfl
  | (n, v) :: fs => by rw [fieldsCount, List.map_cons, valuesCount, fieldsCount_children]

theorem count_of_children (v : Value T) : v.count = 1 + valuesCount v.children := by
  obtain ⟨d, c⟩ := v
  rw [children_inner]
  match d with
  | .composite (.named fs) => rw [Value.count, fieldsCount_children]; rfl
  | .composite (.unnamed vs) => rw [Value.count]; rfl
  | .variant (.mk _ (.named fs)) => rw [Value.count, fieldsCount_children]; rfl
  | .variant (.mk _ (.unnamed vs)) => rw [Value.count]; rfl
  | .primitive _ => rw [Value.count]; rfl
  | .bitSequence _ => rw [Value.count]; rfl

mutual
theorem asks_length {n : Nat} {pc : Bool} : ∀ {v : Value T} {l : List (Asked T)}, Asks n pc v l → l.length ≤ (n + pc.toNat) * v.count
  | v, _, .took (ok := ok) (i := i) (r := r) hi => by
    have h1 : 1 ≤ v.count := by rw [count_of_children]; omega
    have h2 : (if pc then [Asked.ctx v.context ok] else []).length = pc.toNat := by cases pc <;> rfl
    have h3 := Nat.mul_le_mul_left (n + pc.toNat) h1
    simp only [List.length_append, h2, List.length_map, List.length_range, List.length_singleton]
    omega
  | v, _, .left (ok := ok) (l := l) h => by
    have h1 := asksAll_length h
    have h2 : (if pc then [Asked.ctx v.context ok] else []).length = pc.toNat := by cases pc <;> rfl
    have h3 : v.count = 1 + valuesCount v.children := count_of_children v
    simp only [List.length_append, h2, List.length_map, List.length_range]
    rw [h3, Nat.mul_add]
    omega
theorem asksAll_length {n : Nat} {pc : Bool} : ∀ {vs : List (Value T)} {l : List (Asked T)}, AsksAll n pc vs l → l.length ≤ (n + pc.toNat) * valuesCount vs
  | _, _, .nil => by simp
  | _, _, .cons h h' => by
    have h1 := asks_length h
    have h2 := asksAll_length h'
    rw [valuesCount, Nat.mul_add, List.length_append]
    omega
end

theorem fieldsPreorder_eq : ∀ fs : List (Str × Value T), fieldsPreorder fs = valuesPreorder (fs.map (fun p => p.2))
  | [] => by rw [fieldsPreorder]; rfl
  | (n, v) :: fs => by rw [fieldsPreorder, List.map_cons, valuesPreorder, fieldsPreorder_eq]

theorem preorder_children (v : Value T) : v.preorder = v :: valuesPreorder v.children := by
  obtain ⟨d, c⟩ := v
  rw [children_inner]
  match d with
  | .composite (.named fs) => rw [Value.preorder, fieldsPreorder_eq]; rfl
  | .composite (.unnamed vs) => rw [Value.preorder]; rfl
  | .variant (.mk _ (.named fs)) => rw [Value.preorder, fieldsPreorder_eq]; rfl
  | .variant (.mk _ (.unnamed vs)) => rw [Value.preorder]; rfl
  | .primitive _ => rw [Value.preorder]; rfl
  | .bitSequence _ => rw [Value.preorder]; rfl

/-- Nobody takes a value and no context is refused. -/
def AllLeft (l : List (Asked T)) : Prop := (∀ x ∈ l, x.failed = false) ∧ ∀ i v r, Asked.fmt i v (some r) ∉ l

mutual
theorem asks_left {n : Nat} {pc : Bool} : ∀ {v : Value T} {l : List (Asked T)}, Asks n pc v l → AllLeft l → l = v.preorder.flatMap (askedOf n pc)
  | v, _, .took (i := i) (r := r) hi, ha => (ha.2 i v r (by simp)).elim
  | v, _, .left (ok := ok) (l := l) h, ha => by
    have h1 := asksAll_left h ⟨fun x hx => ha.1 x (by simp [hx]), fun i w r hx => ha.2 i w r (by simp [hx])⟩
    rw [preorder_children, List.flatMap_cons, ← h1, askedOf, List.append_assoc]
    congr 1
    cases pc with
    | false => rfl
    | true =>
      have := ha.1 (.ctx v.context ok) (by simp)
      cases ok with
      | true => rfl
      | false => cases this
theorem asksAll_left {n : Nat} {pc : Bool} : ∀ {vs : List (Value T)} {l : List (Asked T)}, AsksAll n pc vs l → AllLeft l → l = (valuesPreorder vs).flatMap (askedOf n pc)
  | _, _, .nil, _ => by rw [valuesPreorder]; rfl
  | _, _, .cons h h', ha => by
    rw [valuesPreorder, List.flatMap_append]
    congr 1
    · exact asks_left h ⟨fun x hx => ha.1 x (by simp [hx]), fun i w r hx => ha.2 i w r (by simp [hx])⟩
    · exact asksAll_left h' ⟨fun x hx => ha.1 x (by simp [hx]), fun i w r hx => ha.2 i w r (by simp [hx])⟩
end

theorem mem_valuesPreorder {x y : Value T} : ∀ {vs : List (Value T)}, x ∈ vs → y ∈ x.preorder → y ∈ valuesPreorder vs
  | v :: vs, hx, hy => by
    rw [valuesPreorder]
    rcases List.mem_cons.1 hx with rfl | hx
    · exact List.mem_append_left _ hy
    · exact List.mem_append_right _ (mem_valuesPreorder hx hy)

mutual
theorem asks_mem {n : Nat} {pc : Bool} : ∀ {v : Value T} {l : List (Asked T)}, Asks n pc v l → ∀ {j y s}, Asked.fmt j y s ∈ l → y ∈ v.preorder
  | v, _, .took (ok := ok) (i := i) (r := r) hi, j, y, s, hm => by
    have : y = v := by
      cases pc <;> simp at hm <;> grind
    rw [preorder_children, this]
    exact List.mem_cons_self
  | v, _, .left (ok := ok) (l := l) h, j, y, s, hm => by
    rw [preorder_children]
    have : y = v ∨ Asked.fmt j y s ∈ l := by
      cases pc <;> simp at hm <;> grind
    rcases this with rfl | h'
    · exact List.mem_cons_self
    · obtain ⟨x, hx, hy⟩ := asksAll_mem h h'
      refine List.mem_cons_of_mem _ ?_
      exact mem_valuesPreorder hx hy
theorem asksAll_mem {n : Nat} {pc : Bool} : ∀ {vs : List (Value T)} {l : List (Asked T)}, AsksAll n pc vs l → ∀ {j y s}, Asked.fmt j y s ∈ l → ∃ x ∈ vs, y ∈ x.preorder
  | _, _, .nil, _, _, _, hm => by cases hm
  | _, _, .cons (v := v) h h', _, _, _, hm => by
    rcases List.mem_append.1 hm with hm | hm
    · exact ⟨v, by simp, asks_mem h hm⟩
    · obtain ⟨x, hx, hy⟩ := asksAll_mem h' hm
      exact ⟨x, by simp [hx], hy⟩
end

mutual
theorem preorder_count : ∀ (x y : Value T), y ∈ x.preorder → y.count ≤ x.count
  | .mk (.primitive p) c, y, h => by rw [Value.preorder, List.mem_singleton] at h; rw [h]; exact Nat.le_refl _
  | .mk (.bitSequence p) c, y, h => by rw [Value.preorder, List.mem_singleton] at h; rw [h]; exact Nat.le_refl _
  | .mk (.composite (.named fs)) c, y, h => by
    rw [Value.preorder, List.mem_cons] at h
    rcases h with rfl | h
    · exact Nat.le_refl _
    · have := fieldsPreorder_count fs y h; rw [Value.count]; omega
  | .mk (.composite (.unnamed fs)) c, y, h => by
    rw [Value.preorder, List.mem_cons] at h
    rcases h with rfl | h
    · exact Nat.le_refl _
    · have := valuesPreorder_count fs y h; rw [Value.count]; omega
  | .mk (.variant (.mk _ (.named fs))) c, y, h => by
    rw [Value.preorder, List.mem_cons] at h
    rcases h with rfl | h
    · exact Nat.le_refl _
    · have := fieldsPreorder_count fs y h; rw [Value.count]; omega
  | .mk (.variant (.mk _ (.unnamed fs))) c, y, h => by
    rw [Value.preorder, List.mem_cons] at h
    rcases h with rfl | h
    · exact Nat.le_refl _
    · have := valuesPreorder_count fs y h; rw [Value.count]; omega
theorem fieldsPreorder_count : ∀ (fs : List (Str × Value T)) (y : Value T), y ∈ fieldsPreorder fs → y.count ≤ fieldsCount fs
  | [], y, h => by rw [fieldsPreorder] at h; cases h
  | (n, v) :: fs, y, h => by
    rw [fieldsPreorder] at h
    rw [fieldsCount]
    rcases List.mem_append.1 h with h | h
    · have := preorder_count v y h; omega
    · have := fieldsPreorder_count fs y h; omega
theorem valuesPreorder_count : ∀ (vs : List (Value T)) (y : Value T), y ∈ valuesPreorder vs → y.count ≤ valuesCount vs
  | [], y, h => by rw [valuesPreorder] at h; cases h
  | v :: fs, y, h => by
    rw [valuesPreorder] at h
    rw [valuesCount]
    rcases List.mem_append.1 h with h | h
    · have := preorder_count v y h; omega
    · have := valuesPreorder_count fs y h; omega
end

theorem not_in_children (v x : Value T) (hx : x ∈ v.children) : v ∉ x.preorder := by
  intro h
  have := valuesPreorder_count _ _ (mem_valuesPreorder hx h)
  rw [count_of_children v] at this
  omega

theorem asks_taken {n : Nat} {pc : Bool} {v : Value T} {l : List (Asked T)} {i : Nat} {r : Bool} (h : Asks n pc v l) (hm : Asked.fmt i v (some r) ∈ l) :
    ∃ x, l = x ++ [.fmt i v (some r)] ∧ Asked.fmt i v (some r) ∉ x := by
  cases h with
  | took hi =>
    rename_i ok i' r'
    have : i = i' ∧ r = r' := by
      cases pc <;> simpa using hm
    obtain ⟨rfl, rfl⟩ := this
    refine ⟨_, (List.append_assoc _ _ _).symm, ?_⟩
    cases pc <;> simp
  | left hl =>
    rename_i ok m
    have : Asked.fmt i v (some r) ∈ m := by
      cases pc <;> simpa using hm
    obtain ⟨x, hx, hv⟩ := asksAll_mem hl this
    exact (not_in_children v x hx hv).elim

end SV
