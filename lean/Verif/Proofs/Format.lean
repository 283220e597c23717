import Verif.Spec.Format
import Verif.Proofs.Value
/-
The formatter is a sequence of writes that does not depend on the writer.
-/
namespace SV

variable {T W : Type} {u : Uni}

/-- The writes of a formatting function, and whether it succeeds after them. -/
abbrev Tr := List Str × Bool

/-- Sequencing of writes. -/
def Tr.seq (a b : Tr) : Tr := if a.2 then (a.1 ++ b.1, b.2) else a
@[inherit_doc] infixr:60 " >+> " => Tr.seq
/-- One write. -/
def Tr.w (s : Str) : Tr := ([s], true)
/-- No write. -/
def Tr.ok : Tr := ([], true)

/-- Formatting options, independent of the type of writer. -/
structure TrCfg (T : Type) where
  indentBy : Str
  leadingIndent : Str
  cust : Value T → Option Tr
  ctx : Option (T → Tr)

/-- Perform the writes. -/
def runTr (wr : Writer W) (t : Tr) (w : W) : Bool × W := match runWrites wr t.1 w with
  | (true, w') => (t.2, w')
  | (false, w') => (false, w')

def Style.inc : Style → Style
  | .pretty n => .pretty (n + 1)
  | s => s

def trIndents (s : Str) : Nat → Tr
  | 0 => Tr.ok
  | n + 1 => Tr.w s >+> trIndents s n
def trNewline (C : TrCfg T) (n : Nat) : Tr := Tr.w ['\n'] >+> Tr.w C.leadingIndent >+> trIndents C.indentBy n
def trSpace : Style → Tr
  | .compact => Tr.ok
  | _ => Tr.w [' ']
def trNl (C : TrCfg T) : Style → Tr
  | .pretty n => trNewline C n
  | _ => Tr.ok
def trSep (C : TrCfg T) : Style → Tr
  | .compact => Tr.ok
  | .normal => Tr.w [' ']
  | .pretty n => trNewline C n
def trEscaped (c : Char) : Tr := match toEscapeCode c with
  | some e => Tr.w ['\\'] >+> Tr.w [e]
  | none => Tr.w [c]
def trChars : Str → Tr
  | [] => Tr.ok
  | c :: s => trEscaped c >+> trChars s
def trString (s : Str) : Tr := Tr.w ['"'] >+> trChars s >+> Tr.w ['"']
def trChar (c : Char) : Tr := Tr.w ['\''] >+> trEscaped c >+> Tr.w ['\'']
def trBits : List Bool → Tr
  | [] => Tr.ok
  | true :: r => Tr.w ['1'] >+> trBits r
  | false :: r => Tr.w ['0'] >+> trBits r
def trBitSequence (bs : List Bool) : Tr := Tr.w ['<'] >+> trBits bs >+> Tr.w ['>']
def trI128 (n : I128) : Tr :=
  if n.val < 0 then Tr.w ['-'] >+> Tr.w (decDigits 39 n.val.natAbs) else Tr.w (decDigits 39 n.val.natAbs)
def trPrimitive : Primitive → Tr
  | .bool true => Tr.w ['t', 'r', 'u', 'e']
  | .bool false => Tr.w ['f', 'a', 'l', 's', 'e']
  | .char c => trChar c
  | .i128 n => trI128 n
  | .u128 n => Tr.w (decDigits 39 n.val)
  | .string s => trString s
  | .u256 _ => ([], false)
  | .i256 _ => ([], false)
def trContext (C : TrCfg T) (c : T) : Tr := match C.ctx with
  | none => Tr.ok
  | some p => Tr.w ['<'] >+> p c >+> Tr.w ['>', ' ']
def trName (u : Uni) (n : Str) : Tr := if isIdent u n then Tr.w n else trString n
def trVariantName (u : Uni) (n : Str) : Tr := if isIdent u n then Tr.w n else Tr.w ['v'] >+> trString n

mutual
def trValue (u : Uni) (C : TrCfg T) : Value T → Style → Tr
  | .mk d c, st => trContext C c >+> (match C.cust (.mk d c) with
    | some t => t
    | none => trValueDef u C d st)
def trValueDef (u : Uni) (C : TrCfg T) : ValueDef T → Style → Tr
  | .composite c, st => trComposite u C c st
  | .variant v, st => trVariant u C v st
  | .bitSequence bs, _ => trBitSequence bs
  | .primitive p, _ => trPrimitive p
def trVariant (u : Uni) (C : TrCfg T) : Variant T → Style → Tr
  | .mk n c, st => trVariantName u n >+> trSpace st >+> trComposite u C c st
def trComposite (u : Uni) (C : TrCfg T) : Composite T → Style → Tr
  | .named fs, st =>
    if fs.isEmpty then Tr.w ['{', '}']
    else Tr.w ['{'] >+> trSep C st.inc >+> trFields u C 0 fs st.inc >+> trSep C st >+> Tr.w ['}']
  | .unnamed vs, st =>
    if vs.isEmpty then Tr.w ['(', ')']
    else Tr.w ['('] >+> trNl C st.inc >+> trVals u C 0 vs st.inc >+> trNl C st >+> Tr.w [')']
def trFields (u : Uni) (C : TrCfg T) : Nat → List (Str × Value T) → Style → Tr
  | _, [], _ => Tr.ok
  | idx, (n, v) :: r, st => (if idx ≠ 0 then Tr.w [','] >+> trSep C st else Tr.ok) >+>
      trName u n >+> Tr.w [':'] >+> trSpace st >+> trValue u C v st >+> trFields u C (idx + 1) r st
def trVals (u : Uni) (C : TrCfg T) : Nat → List (Value T) → Style → Tr
  | _, [], _ => Tr.ok
  | idx, v :: r, st => (if idx ≠ 0 then Tr.w [','] >+> trSep C st else Tr.ok) >+>
      trValue u C v st >+> trVals u C (idx + 1) r st
end

/-- A formatting function, started in style `st`, does the writes `t` and (if these succeed) ends in style `st2`. -/
def Runs (wr : Writer W) (m : FM W) (t : Tr) (st st2 : Style) : Prop :=
  ∀ w, match runTr wr t w with
    | (true, w') => m ⟨w, st⟩ = (true, ⟨w', st2⟩)
    | (false, w') => ∃ st', m ⟨w, st⟩ = (false, ⟨w', st'⟩)

theorem runWrites_append (wr : Writer W) (a b : List Str) (w : W) :
    runWrites wr (a ++ b) w = match runWrites wr a w with
      | (true, w') => runWrites wr b w'
      | (false, w') => (false, w') := by
  induction a generalizing w with
  | nil => rfl
  | cons s a ih =>
    simp only [List.cons_append, runWrites]
    cases wr s w with
    | mk ok w' => cases ok <;> simp [ih]

theorem Runs.seq {wr : Writer W} {m1 m2 : FM W} {t1 t2 : Tr} {s1 s2 s3 : Style} (h1 : Runs wr m1 t1 s1 s2)
    (h2 : Runs wr m2 t2 s2 s3) : Runs wr (m1 >>> m2) (t1 >+> t2) s1 s3 := by
  intro w
  replace h1 := h1 w
  unfold FM.andThen
  obtain ⟨l1, ok1⟩ := t1
  obtain ⟨l2, ok2⟩ := t2
  simp only [runTr, Tr.seq] at h1 ⊢
  cases hr : runWrites wr l1 w with
  | mk ok w' =>
    rw [hr] at h1
    cases ok with
    | false =>
      simp only at h1
      obtain ⟨st', h1⟩ := h1
      cases ok1 with
      | false => simp only [Bool.false_eq_true, if_false, hr]; exact ⟨st', by rw [h1]⟩
      | true => simp only [if_true, runWrites_append, hr]; exact ⟨st', by rw [h1]⟩
    | true =>
      simp only at h1
      cases ok1 with
      | false =>
        obtain ⟨st', h1⟩ := h1
        simp only [Bool.false_eq_true, if_false, hr]; exact ⟨st', by rw [h1]⟩
      | true =>
        simp only [if_true, runWrites_append, hr, h1]
        exact h2 w'

theorem Runs.w (b : Builder T W) (s : Str) (st : Style) : Runs b.wr (writeStr b s) (Tr.w s) st st := by
  intro w
  simp only [runTr, Tr.w, runWrites, writeStr]
  cases b.wr s w with
  | mk ok w' => cases ok
                · exact ⟨st, rfl⟩
                · rfl

theorem Runs.ok (wr : Writer W) (st : Style) : Runs wr FM.ok Tr.ok st st := by intro w; rfl

theorem Runs.silent {wr : Writer W} {m : FM W} {st st2 : Style} (h : ∀ w, m ⟨w, st⟩ = (true, ⟨w, st2⟩)) :
    Runs wr m Tr.ok st st2 := by intro w; exact h w

theorem seq_ok_left (t : Tr) : (Tr.ok >+> t) = t := by simp [Tr.ok, Tr.seq]

theorem Runs.indent (wr : Writer W) (st : Style) : Runs wr indentStep Tr.ok st st.inc := by
  apply Runs.silent; intro w; cases st <;> rfl
theorem Runs.unindent (wr : Writer W) (st : Style) : Runs wr unindentStep Tr.ok st.inc st := by
  apply Runs.silent; intro w; cases st <;> rfl

/-- The builder `b` has the options `C`. -/
structure Represents (b : Builder T W) (C : TrCfg T) : Prop where
  indent : b.indentBy = C.indentBy
  lead : b.leadingIndent = C.leadingIndent
  cust : ∀ v w, runFormatters b.customFormatters v w = match C.cust v with
    | none => (none, w)
    | some t => (some (runTr b.wr t w).1, (runTr b.wr t w).2)
  ctx : match b.printContext, C.ctx with
    | none, none => True
    | some p, some q => ∀ c w, p c w = runTr b.wr (q c) w
    | _, _ => False

section
variable {b : Builder T W} {C : TrCfg T}

theorem runs_indents (s : Str) (h : b.indentBy = s) (n : Nat) (st : Style) :
    Runs b.wr (writeIndents b n) (trIndents s n) st st := by
  induction n with
  | zero => exact .ok _ _
  | succ n ih => subst h; exact (Runs.w b _ st).seq ih

theorem runs_newline (R : Represents b C) (n : Nat) (st : Style) :
    Runs b.wr (writeNewline b n) (trNewline C n) st st := by
  unfold writeNewline trNewline
  rw [R.lead]
  exact (Runs.w b _ st).seq ((Runs.w b _ st).seq (runs_indents _ R.indent n st))

theorem runs_space (st : Style) : Runs b.wr (space b) (trSpace st) st st := by
  cases st with
  | compact => exact .silent fun w => rfl
  | normal => exact Runs.w b [' '] .normal
  | pretty n => exact Runs.w b [' '] (.pretty n)

theorem runs_nl (R : Represents b C) (st : Style) : Runs b.wr (newline b) (trNl C st) st st := by
  cases st with
  | compact => exact .silent fun w => rfl
  | normal => exact .silent fun w => rfl
  | pretty n => exact runs_newline R n (.pretty n)

theorem runs_sep (R : Represents b C) (st : Style) : Runs b.wr (itemSeparator b) (trSep C st) st st := by
  cases st with
  | compact => exact .silent fun w => rfl
  | normal => exact Runs.w b [' '] .normal
  | pretty n => exact runs_newline R n (.pretty n)

theorem runs_escaped (c : Char) (st : Style) : Runs b.wr (writeEscaped b c) (trEscaped c) st st := by
  unfold writeEscaped trEscaped
  cases toEscapeCode c with
  | none => exact .w b _ st
  | some e => exact (Runs.w b _ st).seq (.w b _ st)

theorem runs_chars (s : Str) (st : Style) : Runs b.wr (writeChars b s) (trChars s) st st := by
  induction s with
  | nil => exact .ok _ _
  | cons c s ih => exact (runs_escaped c st).seq ih

theorem runs_string (s : Str) (st : Style) : Runs b.wr (fmtString b s) (trString s) st st :=
  (Runs.w b _ st).seq ((runs_chars s st).seq (.w b _ st))

theorem runs_bits (bs : List Bool) (st : Style) : Runs b.wr (writeBits b bs) (trBits bs) st st := by
  induction bs with
  | nil => exact .ok _ _
  | cons c s ih => cases c <;> exact (Runs.w b _ st).seq ih

theorem runs_primitive (p : Primitive) (st : Style) : Runs b.wr (fmtPrimitive b p) (trPrimitive p) st st := by
  cases p with
  | bool x => cases x <;> exact Runs.w b _ st
  | char c => exact (Runs.w b _ st).seq ((runs_escaped c st).seq (.w b _ st))
  | i128 n =>
    simp only [fmtPrimitive, trPrimitive, writeI128, trI128]
    split
    · exact (Runs.w b _ st).seq (.w b _ st)
    · exact .w b _ st
  | u128 n => exact Runs.w b _ st
  | string s => exact runs_string s st
  | u256 x => intro w; exact ⟨st, rfl⟩
  | i256 x => intro w; exact ⟨st, rfl⟩

theorem runs_context (R : Represents b C) (c : T) (st : Style) :
    Runs b.wr (fmtContext b c) (trContext C c) st st := by
  have := R.ctx
  unfold fmtContext trContext
  cases hb : b.printContext with
  | none =>
    cases hc : C.ctx with
    | none => exact .ok _ _
    | some q => rw [hb, hc] at this; exact this.elim
  | some p =>
    cases hc : C.ctx with
    | none => rw [hb, hc] at this; exact this.elim
    | some q =>
      rw [hb, hc] at this
      simp only at this
      refine (Runs.w b _ st).seq (Runs.seq ?_ (.w b _ st))
      intro w
      simp only [this]
      cases runTr b.wr (q c) w with
      | mk ok w' => cases ok
                    · exact ⟨st, rfl⟩
                    · rfl

theorem runs_name (n : Str) (st : Style) :
    Runs b.wr (if isIdent u n then writeStr b n else fmtString b n) (trName u n) st st := by
  unfold trName
  split
  · exact .w b _ st
  · exact runs_string n st

theorem runs_variantName (n : Str) (st : Style) :
    Runs b.wr (if isIdent u n then writeStr b n else writeStr b ['v'] >>> fmtString b n) (trVariantName u n) st st := by
  unfold trVariantName
  split
  · exact .w b _ st
  · exact (Runs.w b _ st).seq (runs_string n st)

theorem runs_comma (R : Represents b C) (idx : Nat) (st : Style) :
    Runs b.wr (if idx ≠ 0 then writeStr b [','] >>> itemSeparator b else FM.ok)
      (if idx ≠ 0 then Tr.w [','] >+> trSep C st else Tr.ok) st st := by
  split
  · exact (Runs.w b _ st).seq (runs_sep R st)
  · exact .ok _ _

theorem runs_fields (R : Represents b C) (fs : List (Str × Value T)) (st : Style)
    (ih : ∀ p ∈ fs, Runs b.wr (fmtValue u b p.2) (trValue u C p.2 st) st st) :
    ∀ idx, Runs b.wr (fmtFields u b idx fs) (trFields u C idx fs st) st st := by
  induction fs with
  | nil => intro idx; simp only [fmtFields, trFields]; exact .ok _ _
  | cons p r ihr =>
    intro idx
    obtain ⟨n, v⟩ := p
    simp only [fmtFields, trFields]
    exact (runs_comma R idx st).seq ((runs_name n st).seq ((Runs.w b _ st).seq ((runs_space st).seq
      ((ih (n, v) (by simp)).seq (ihr (fun p hp => ih p (by simp [hp])) _)))))

theorem runs_vals (R : Represents b C) (fs : List (Value T)) (st : Style)
    (ih : ∀ p ∈ fs, Runs b.wr (fmtValue u b p) (trValue u C p st) st st) :
    ∀ idx, Runs b.wr (fmtVals u b idx fs) (trVals u C idx fs st) st st := by
  induction fs with
  | nil => intro idx; simp only [fmtVals, trVals]; exact .ok _ _
  | cons v r ihr =>
    intro idx
    simp only [fmtVals, trVals]
    exact (runs_comma R idx st).seq ((ih v (by simp)).seq (ihr (fun p hp => ih p (by simp [hp])) _))

theorem runs_named (R : Represents b C) (fs : List (Str × Value T))
    (ih : ∀ p ∈ fs, ∀ st, Runs b.wr (fmtValue u b p.2) (trValue u C p.2 st) st st) (st : Style) :
    Runs b.wr (fmtComposite u b (.named fs)) (trComposite u C (.named fs) st) st st := by
  simp only [fmtComposite, trComposite]
  split
  · exact .w b _ st
  · have h := (Runs.w b ['{'] st).seq ((Runs.indent b.wr st).seq ((runs_sep R st.inc).seq
      ((runs_fields (u := u) R fs st.inc (fun p hp => ih p hp _) 0).seq ((Runs.unindent b.wr st).seq
        ((runs_sep R st).seq (.w b ['}'] st))))))
    simpa only [seq_ok_left] using h

theorem runs_unnamed (R : Represents b C) (fs : List (Value T))
    (ih : ∀ p ∈ fs, ∀ st, Runs b.wr (fmtValue u b p) (trValue u C p st) st st) (st : Style) :
    Runs b.wr (fmtComposite u b (.unnamed fs)) (trComposite u C (.unnamed fs) st) st st := by
  simp only [fmtComposite, trComposite]
  split
  · exact .w b _ st
  · have h := (Runs.w b ['('] st).seq ((Runs.indent b.wr st).seq ((runs_nl R st.inc).seq
      ((runs_vals (u := u) R fs st.inc (fun p hp => ih p hp _) 0).seq ((Runs.unindent b.wr st).seq
        ((runs_nl R st).seq (.w b [')'] st))))))
    simpa only [seq_ok_left] using h

theorem runs_of_def (R : Represents b C) {d : ValueDef T} {c : T} {st : Style}
    (h : Runs b.wr (fmtValueDef u b d) (trValueDef u C d st) st st) :
    Runs b.wr (fmtValue u b (.mk d c)) (trValue u C (.mk d c) st) st st := by
  simp only [fmtValue, trValue]
  refine (runs_context R c st).seq ?_
  intro w
  simp only [R.cust]
  cases C.cust (.mk d c) with
  | none => exact h w
  | some t =>
    simp only
    cases runTr b.wr t w with
    | mk ok w' => cases ok
                  · exact ⟨st, rfl⟩
                  · rfl

theorem runs_value (R : Represents b C) (v : Value T) : ∀ st,
    Runs b.wr (fmtValue u b v) (trValue u C v st) st st := by
  induction v using Value.ind with
  | named fs c ih =>
    intro st; apply runs_of_def R; simp only [fmtValueDef, trValueDef]; exact runs_named R fs ih st
  | unnamed fs c ih =>
    intro st; apply runs_of_def R; simp only [fmtValueDef, trValueDef]; exact runs_unnamed R fs ih st
  | vnamed n fs c ih =>
    intro st; apply runs_of_def R; simp only [fmtValueDef, trValueDef, fmtVariant, trVariant]
    exact (runs_variantName n st).seq ((runs_space st).seq (runs_named R fs ih st))
  | vunnamed n fs c ih =>
    intro st; apply runs_of_def R; simp only [fmtValueDef, trValueDef, fmtVariant, trVariant]
    exact (runs_variantName n st).seq ((runs_space st).seq (runs_unnamed R fs ih st))
  | bits bs c =>
    intro st; apply runs_of_def R; simp only [fmtValueDef, trValueDef]
    exact (Runs.w b _ st).seq ((runs_bits bs st).seq (.w b _ st))
  | prim p c =>
    intro st; apply runs_of_def R; simp only [fmtValueDef, trValueDef]; exact runs_primitive p st

/-- The whole formatter: writing a value is performing its writes. -/
theorem write_eq (R : Represents b C) (v : Value T) (w : W) :
    b.write u v w = runTr b.wr (trValue u C v b.style) w := by
  have := runs_value (u := u) R v b.style w
  unfold Builder.write
  cases hr : runTr b.wr (trValue u C v b.style) w with
  | mk ok w' =>
    rw [hr] at this
    cases ok with
    | true => simp only at this; rw [this]
    | false => obtain ⟨st', h⟩ := this; rw [h]

end

/-- No custom formatters, no contexts. -/
def TrCfg.plain (indentBy leadingIndent : Str) : TrCfg T := ⟨indentBy, leadingIndent, fun _ => none, none⟩

theorem represents_plain (b : Builder T W) (h1 : b.customFormatters = []) (h2 : b.printContext = none) :
    Represents b (.plain b.indentBy b.leadingIndent) where
  indent := rfl
  lead := rfl
  cust := by intro v w; simp [h1, runFormatters, TrCfg.plain]
  ctx := by simp [h2, TrCfg.plain]

theorem runWrites_string (ws : List Str) (w : Str) : runWrites stringWriter ws w = (true, w ++ ws.flatten) := by
  induction ws generalizing w with
  | nil => simp [runWrites]
  | cons s ss ih => simp [runWrites, stringWriter, ih]

theorem runTr_string (t : Tr) (w : Str) : runTr stringWriter t w = (t.2, w ++ t.1.flatten) := by
  simp [runTr, runWrites_string]

theorem runWrites_log (ws : List Str) (w : List Str) : runWrites logWriter ws w = (true, w ++ ws) := by
  induction ws generalizing w with
  | nil => simp [runWrites]
  | cons s ss ih => simp [runWrites, logWriter, ih]

theorem runTr_log (t : Tr) (w : List Str) : runTr logWriter t w = (t.2, w ++ t.1) := by
  simp [runTr, runWrites_log]

/-- `Display` is formatting with the default builder. -/
theorem display_eq (wr : Writer W) (alt : Bool) (v : Value T) (w : W) :
    v.display u wr alt w = (defaultBuilder wr alt).write u v w := by
  obtain ⟨d, c⟩ := v
  have h1 : (defaultBuilder (T := T) wr alt).customFormatters = [] := by cases alt <;> rfl
  have h2 : (defaultBuilder (T := T) wr alt).printContext = none := by cases alt <;> rfl
  simp only [Value.display, Builder.write, fmtValue, fmtContext, h1, h2, FM.andThen, FM.ok, runFormatters]

end SV
