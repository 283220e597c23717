import Verif.Proofs.FormatShown
import Verif.Proofs.ParseSound
/-
Only printable values survive printing and parsing.
-/
namespace SV

variable {T W : Type} {u : Uni}

/-- No custom formatters and contexts, and whitespace as indent. -/
structure PlainOpts (u : Uni) (o : FmtOpts T) : Prop where
  formatters : o.formatters = []
  context : o.context = none
  indent : Ws u o.indentBy
  lead : Ws u o.leadingIndent

theorem PlainOpts.before {o : FmtOpts T} (h : PlainOpts u o) (c : T) : o.before c = [] := by
  simp [FmtOpts.before, h.context]

theorem PlainOpts.custom {o : FmtOpts T} (h : PlainOpts u o) (v : Value T) : o.custom v = none := by
  simp [FmtOpts.custom, h.formatters]

theorem PlainOpts.space {o : FmtOpts T} (_ : PlainOpts u o) : Ws u o.space := by
  unfold FmtOpts.space
  split
  · exact ws_nil
  · exact ws_one ws_space
  · exact ws_one ws_space

theorem PlainOpts.line {o : FmtOpts T} (h : PlainOpts u o) (k : Nat) : Ws u (o.line k) := by
  unfold FmtOpts.line
  split
  · exact ws_nil
  · exact ws_nil
  · exact Ws.append (a := '\n' :: o.leadingIndent) (Ws.append (a := ['\n']) (ws_one ws_newline) h.lead) (ws_rep h.indent _)

theorem PlainOpts.gap {o : FmtOpts T} (h : PlainOpts u o) (k : Nat) : Ws u (o.gap k) := by
  unfold FmtOpts.gap
  split
  · exact ws_nil
  · exact ws_one ws_space
  · exact Ws.append (a := '\n' :: o.leadingIndent) (Ws.append (a := ['\n']) (ws_one ws_newline) h.lead) (ws_rep h.indent _)

theorem shown_text {o : FmtOpts T} (ho : PlainOpts u o) {k : Nat} {v : Value T} {s : Str} (h : Shown u o k (.val v) s) (hp : Printable u v) :
    Text u NoCustom v.removeContext s := by
  obtain ⟨h1, h2, -⟩ := shown_cat o h 0
  simp only [trCat, ShowCat.comma, List.nil_append] at h1 h2
  have := value_text (u := u) (C := o.cfg) (X := NoCustom) ho.indent ho.lead (by simp [FmtOpts.cfg, ho.context])
    (by intro v t h; simp [FmtOpts.cfg, ho.formatters] at h) v hp _ h1
  rwa [h2] at this

theorem ws_cancel {w w' a b : Str} (hw : Ws u w) (hw' : Ws u w') (ha : GoodHead u a) (hb : GoodHead u b) (h : w ++ a = w' ++ b) : w = w' ∧ a = b := by
  have h1 := takeWhile_split (p := u.ws) hw ha.notWs
  have h2 := takeWhile_split (p := u.ws) hw' hb.notWs
  rw [h] at h1
  exact ⟨h1.1.symm.trans h2.1, h1.2.symm.trans h2.2⟩

theorem ws_cancel_cons {w a b : Str} {c : Char} (hc : u.ws c = false) (hw : Ws u w) (h : c :: a = w ++ c :: b) : w = [] ∧ a = b := by
  cases w with
  | nil => simpa using h
  | cons d w =>
    simp at h
    have := hw d (by simp)
    rw [← h.1, hc] at this; cases this

theorem notNumCont_ws {w r : Str} (hw : Ws u w) (hr : NotNumCont r) : NotNumCont (w ++ r) := by
  cases w with
  | nil => exact hr
  | cons c w =>
    have h := hw c (by simp)
    refine ⟨ws_not_digit h, ?_⟩
    rintro rfl
    rw [ws_false_ascii (by decide) (by decide)] at h; cases h

theorem shownName_field {n s : Str} (h : ShownName u [] n s) : FieldName u n s := by
  rw [shownName_iff] at h; subst h; exact name_text n

theorem shownName_variant {n s : Str} (h : ShownName u ['v'] n s) (hn : NameOk u n) : VariantName u n s := by
  rw [shownVariant_iff] at h; subst h; exact variantName_text hn

theorem ShownName.goodHead {n s : Str} (h : ShownName u ['v'] n s) : GoodHead u s := by
  cases h with
  | ident h => exact h.goodHead
  | quoted h => exact goodHead_ascii (by decide) (by decide) (by decide) (by decide)

theorem toDigits_goodHead (m : Nat) : ∃ c cs, Nat.toDigits 10 m = c :: cs ∧ isDigit c = true := by
  have h : ∃ f, 0 < f ∧ m < 10 ^ f := ⟨m + 1, by omega, Nat.lt_of_lt_of_le (Nat.lt_succ_self m) (Nat.le_of_lt (Nat.lt_pow_self (by decide)))⟩
  obtain ⟨f, h1, h2⟩ := h
  rw [← decDigits_eq f m h1 h2]
  exact (decDigits_val f m h1 h2).head

theorem Shown.goodHead {o : FmtOpts T} (ho : PlainOpts u o) {k : Nat} {cat : ShowCat T} {s : Str} (h : Shown u o k cat s) : GoodHead u s := by
  have dig : ∀ m, GoodHead u (Nat.toDigits 10 m) := by
    intro m
    obtain ⟨c, cs, h1, hc⟩ := toDigits_goodHead m
    rw [h1]
    refine ⟨c, cs, rfl, isDigit_not_ws hc, ?_, ?_⟩ <;> (rintro rfl; revert hc; decide)
  induction h with
  | custom h => rw [ho.custom] at h; cases h
  | default _ _ ih => rw [ho.before]; exact ih
  | unsigned => exact dig _
  | nonneg => exact dig _
  | composite _ ih => exact ih
  | variant hn _ _ => exact (hn.goodHead.append _).append _
  | field1 hn _ _ => simpa [List.append_assoc] using (shownName_field hn).goodHead.append _
  | fieldCons hn _ _ _ _ => simpa [List.append_assoc] using (shownName_field hn).goodHead.append _
  | val1 _ ih => exact ih
  | valCons _ _ ih _ => simpa [List.append_assoc] using ih.append _
  | _ => exact goodHead_ascii (by decide) (by decide) (by decide) (by decide)

/-- A composite without its contexts. -/
def Composite.bare : Composite T → Composite Unit
  | .named fs => .named (fs.map fun p => (p.1, p.2.removeContext))
  | .unnamed vs => .unnamed (vs.map Value.removeContext)

theorem removeContext_comp (c : Composite T) (x : T) : (Value.mk (.composite c) x).removeContext = .mk (.composite c.bare) () := by
  cases c <;> simp [Value.removeContext, Value.mapContext, Composite.bare]

theorem removeContext_variant (n : Str) (c : Composite T) (x : T) : (Value.mk (.variant (.mk n c)) x).removeContext = .variant n c.bare := by
  cases c <;> simp [Value.removeContext, Value.mapContext, Composite.bare, Value.variant]

/-- What is proved of shown texts. -/
def Survives (u : Uni) : ShowCat T → Str → Prop
  | .val v, s => ∀ x r rest, s ++ rest = x ++ r → Text u NoCustom v.removeContext x → PlainFollow x r → NotNumCont rest → Printable u v
  | .dflt d, s => ∀ c x r rest, s ++ rest = x ++ r → Text u NoCustom (Value.mk d c).removeContext x → PlainFollow x r → NotNumCont rest →
      Printable u (.mk d c)
  | .comp c, s => ∀ x r rest, s ++ rest = x ++ r → Txt u NoCustom (.comp c.bare) x → ∀ v ∈ c.vals, Printable u v
  | .fields fs, s => ∀ x r rest, s ++ rest = x ++ r → Txt u NoCustom (.fields (fs.map fun p => (p.1, p.2.removeContext))) x → PlainFollow x r →
      NotNumCont rest → ∀ p ∈ fs, Printable u p.2
  | .vals vs, s => ∀ x r rest, s ++ rest = x ++ r → Txt u NoCustom (.vals (vs.map Value.removeContext)) x → PlainFollow x r →
      NotNumCont rest → ∀ v ∈ vs, Printable u v

/-- If the shown text is read as the value then it is read to its end. -/
theorem same_end {o : FmtOpts T} (ho : PlainOpts u o) {k : Nat} {v : Value T} {s x r rest : Str} (h : Shown u o k (.val v) s) (hp : Printable u v)
    (he : s ++ rest = x ++ r) (hx : Text u NoCustom v.removeContext x) (hf : PlainFollow x r) (hn : NotNumCont rest) : s = x ∧ rest = r := by
  have h1 := fromStr_iff.2 ⟨s, shown_text ho h hp, rfl, fun _ => hn⟩
  have h2 := fromStr_iff.2 ⟨x, hx, rfl, hf⟩
  rw [he, h2] at h1
  simp at h1
  subst h1
  exact ⟨List.append_cancel_right he, rfl⟩

theorem printable_composite {c : Composite T} {x : T} (h : ∀ v ∈ c.vals, Printable u v) : Printable u (.mk (.composite c) x) := by
  cases c with
  | named fs => exact .named (fun p hp => h p.2 (by simp [Composite.vals]; exact ⟨_, hp⟩))
  | unnamed vs => exact .unnamed h

theorem printable_variant {n : Str} {c : Composite T} {x : T} (hn : NameOk u n) (h : ∀ v ∈ c.vals, Printable u v) : Printable u (.mk (.variant (.mk n c)) x) := by
  cases c with
  | named fs => exact .vnamed hn (fun p hp => h p.2 (by simp [Composite.vals]; exact ⟨_, hp⟩))
  | unnamed vs => exact .vunnamed hn h

theorem comp_head {o : FmtOpts T} {k : Nat} {c : Composite T} {s : Str} (h : Shown u o k (.comp c) s) : ∃ b r, s = b :: r ∧ (b = '(' ∨ b = '{') := by
  cases h with
  | namedEmpty => exact ⟨_, _, rfl, .inr rfl⟩
  | unnamedEmpty => exact ⟨_, _, rfl, .inl rfl⟩
  | named => exact ⟨_, _, rfl, .inr rfl⟩
  | unnamed => exact ⟨_, _, rfl, .inl rfl⟩

theorem comp_text_head {c : Composite Unit} {s : Str} (h : Txt u NoCustom (.comp c) s) : ∃ b r, s = b :: r ∧ (b = '(' ∨ b = '{') := by
  cases h with
  | namedEmpty => exact ⟨_, _, rfl, .inr rfl⟩
  | unnamedEmpty => exact ⟨_, _, rfl, .inl rfl⟩
  | named => exact ⟨_, _, rfl, .inr rfl⟩
  | unnamed => exact ⟨_, _, rfl, .inl rfl⟩

theorem noCustom_goodHead {cat : Cat} {s : Str} (h : Txt u NoCustom cat s) : GoodHead u s := h.goodHead (fun _ _ h => h.elim)

theorem Shown.survives {o : FmtOpts T} (ho : PlainOpts u o) {k : Nat} {cat : ShowCat T} {s : Str} (h : Shown u o k cat s) : Survives u cat s := by
  induction h with
  | custom h => rw [ho.custom] at h; cases h
  | @default k d c s _ h ih =>
    rw [ho.before]
    intro x r rest he hx hf hn
    exact ih c x r rest he hx hf hn
  | true_ => intro c x r rest _ _ _ _; exact .prim trivial
  | false_ => intro c x r rest _ _ _ _; exact .prim trivial
  | char _ => intro c x r rest _ _ _ _; exact .prim trivial
  | string _ => intro c x r rest _ _ _ _; exact .prim trivial
  | unsigned => intro c x r rest _ _ _ _; exact .prim trivial
  | @nonneg k n m h =>
    intro c x r rest he hx hf hn
    exfalso
    have hx' : ∃ y, x = '-' :: y := by
      cases hx with
      | custom h => exact h.elim
      | builtin h =>
        generalize hv : (Value.mk (ValueDef.primitive (Primitive.i128 n)) c).removeContext = w at h
        rw [show (Value.mk (ValueDef.primitive (Primitive.i128 n)) c).removeContext = .mk (.primitive (.i128 n)) () from rfl] at hv
        cases h with
        | number h =>
          simp [Value.primitive] at hv
          subst hv
          cases h with
          | minus => exact ⟨_, rfl⟩
        | _ => simp [Value.bool, Value.char, Value.string, Value.bitSequence, Value.variant] at hv
    obtain ⟨y, rfl⟩ := hx'
    obtain ⟨d, ds, h1, h2⟩ := toDigits_goodHead m
    rw [h1] at he
    simp at he
    rw [he.1] at h2
    revert h2; decide
  | @negative k n m h hm => intro c x r rest _ _ _ _; exact .prim (by simp only [PrimOk]; omega)
  | bits => intro c x r rest _ _ _ _; exact .bits
  | @composite k c s h ih =>
    intro ctx x r rest he hx hf hn
    rw [removeContext_comp] at hx
    refine printable_composite ?_
    cases hx with
    | custom h => exact h.elim
    | builtin h' =>
      generalize hv : (Value.mk (ValueDef.composite c.bare) ()) = w at h'
      cases h' with
      | composite h' =>
        simp at hv
        subst hv
        exact ih x r rest he h'
      | _ => simp [Value.bool, Value.char, Value.string, Value.bitSequence, Value.variant, Value.primitive] at hv
  | @variant k n c s t hn h ih =>
    intro ctx x r rest he hx hf hnr
    rw [removeContext_variant] at hx
    cases hx with
    | custom h => exact h.elim
    | builtin h' =>
      generalize hv : Value.variant n c.bare = w at h'
      cases h' with
      | @variant n' c' xn xt w hn' hw h' =>
        simp [Value.variant] at hv
        obtain ⟨rfl, rfl⟩ := hv
        obtain ⟨b, t', rfl, hb⟩ := comp_head h
        obtain ⟨b', t'', rfl, hb'⟩ := comp_text_head h'
        have hid : ∀ {b : Char} {w q : Str}, Ws u w → b = '(' ∨ b = '{' → HeadNot (identCh u) (w ++ b :: q) ∧ ∀ r', w ++ b :: q ≠ '"' :: r' := by
          intro b w q hw hb
          constructor
          · refine headNot_ws_append hw (fun _ => ws_not_identCh) (HeadNot_cons.2 ?_)
            rcases hb with rfl | rfl <;> exact identCh_ascii_false (by decide) (by decide) (by decide)
          · intro r' e
            cases w with
            | nil => simp at e; rcases hb with rfl | rfl <;> revert e <;> simp
            | cons d w =>
              have := hw d (by simp)
              simp at e
              rw [e.1, ws_false_ascii (by decide) (by decide)] at this; cases this
        have hok : NameOk u n := by
          intro hi
          cases hn with
          | quoted h _ => exact absurd hi h
          | ident _ =>
            cases hn' with
            | ident _ h1 h2 => exact ⟨h1, h2⟩
            | quoted h =>
              exfalso
              cases h
              have hi' := hi
              cases hi with
              | @mk d ds hd hds =>
                simp at he
                cases ds with
                | nil =>
                  exact (hid (q := t' ++ rest) ho.space hb).2 _ he.2
                | cons e es =>
                  simp at he
                  have := hds e (by simp)
                  rw [he.2.1] at this
                  rcases this with h | h
                  · rw [alnum_ascii (by decide)] at h; revert h; decide
                  · revert h; decide
        refine printable_variant hok ?_
        have h1 := (shownName_variant hn hok).parse (hid (q := t' ++ rest) ho.space hb).1 (hid (q := t' ++ rest) ho.space hb).2 0
        have h2 := hn'.parse (hid (q := t'' ++ r) hw hb').1 (hid (q := t'' ++ r) hw hb').2 0
        have e1 : s ++ (o.space ++ b :: (t' ++ rest)) = xn ++ (w ++ b' :: (t'' ++ r)) := by simpa [List.append_assoc] using he
        rw [e1, h2] at h1
        simp at h1
        have hg : ∀ {b : Char} {q : Str}, b = '(' ∨ b = '{' → GoodHead u (b :: q) := by
          intro b q hb
          rcases hb with rfl | rfl <;> exact goodHead_ascii (by decide) (by decide) (by decide) (by decide)
        obtain ⟨-, e2⟩ := ws_cancel hw ho.space (hg hb') (hg hb) h1.1
        exact ih (b' :: t'') r rest (by simpa using e2.symm) h'
      | _ => simp [Value.bool, Value.char, Value.string, Value.bitSequence, Value.variant, Value.primitive] at hv
  | namedEmpty => intro x r rest _ _ v hv; simp [Composite.vals] at hv
  | unnamedEmpty => intro x r rest _ _ v hv; simp [Composite.vals] at hv
  | @named k fs s h ih =>
    intro x r rest he hx v hv
    have hne : fs ≠ [] := by rintro rfl; simp [Composite.vals] at hv
    simp [Composite.vals] at hv
    obtain ⟨p, hp⟩ := hv
    generalize hc : (Composite.named fs).bare = c at hx
    cases hx with
    | namedEmpty => simp [Composite.bare] at hc; exact absurd hc hne
    | @named fs' w1 w2 x hw1 hw2 hx =>
      simp only [Composite.bare, Composite.named.injEq] at hc
      subst hc
      have hg := noCustom_goodHead hx
      have he' : o.gap (k + 1) ++ (s ++ (o.gap k ++ '}' :: rest)) = w1 ++ (x ++ (w2 ++ '}' :: r)) := by simpa using he
      obtain ⟨-, he'⟩ := ws_cancel (ho.gap _) hw1 ((h.goodHead ho).append _) (hg.append _) he'
      exact ih x _ _ he' hx (fun _ => notNumCont_ws hw2 ⟨by decide, by decide⟩) (notNumCont_ws (ho.gap _) ⟨by decide, by decide⟩) _ hp
    | _ => simp [Composite.bare] at hc
  | @unnamed k vs s h ih =>
    intro x r rest he hx v hv
    have hne : vs ≠ [] := by rintro rfl; simp [Composite.vals] at hv
    simp [Composite.vals] at hv
    generalize hc : (Composite.unnamed vs).bare = c at hx
    cases hx with
    | unnamedEmpty => simp [Composite.bare] at hc; exact absurd hc hne
    | @unnamed vs' w1 w2 x hw1 hw2 hx =>
      simp only [Composite.bare, Composite.unnamed.injEq] at hc
      subst hc
      have hg := noCustom_goodHead hx
      have he' : o.line (k + 1) ++ (s ++ (o.line k ++ ')' :: rest)) = w1 ++ (x ++ (w2 ++ ')' :: r)) := by simpa using he
      obtain ⟨-, he'⟩ := ws_cancel (ho.line _) hw1 ((h.goodHead ho).append _) (hg.append _) he'
      exact ih x _ _ he' hx (fun _ => notNumCont_ws hw2 ⟨by decide, by decide⟩) (notNumCont_ws (ho.line _) ⟨by decide, by decide⟩) _ hv
    | _ => simp [Composite.bare] at hc
  | @field1 k n v s t hn h ih =>
    intro x r rest he hx hf hr p hp
    simp at hp; subst hp
    cases hx with
    | @field1 k' v' xn y w1 w2 hk hw1 hw2 hx =>
      have hs : FieldName u n s := shownName_field hn
      have hcol : ∀ {q}, HeadNot (identCh u) (':' :: q) := HeadNot_cons.2 (identCh_ascii_false (by decide) (by decide) (by decide))
      have h1 := hs.parse (rest := ':' :: (o.space ++ (t ++ rest))) hcol 0
      have h2 := hk.parse (rest := w1 ++ ':' :: (w2 ++ (y ++ r))) (headNot_ws_append hw1 (fun _ => ws_not_identCh) hcol) 0
      have e1 : s ++ ':' :: (o.space ++ (t ++ rest)) = xn ++ (w1 ++ ':' :: (w2 ++ (y ++ r))) := by simpa using he
      rw [e1, h2] at h1
      simp at h1
      obtain ⟨rfl, e2⟩ := ws_cancel_cons (ws_false_ascii (by decide) (by decide)) hw1 h1.1.symm
      have hg := noCustom_goodHead hx
      obtain ⟨-, e3⟩ := ws_cancel ho.space hw2 ((h.goodHead ho).append _) (hg.append _) e2
      refine ih y r rest e3 hx ?_ hr
      rintro ⟨a, b, rfl, hb⟩
      exact hf ⟨xn ++ [] ++ ':' :: w2 ++ a, b, by simp, hb⟩
    | fieldCons _ _ _ _ _ _ hs => exfalso; cases hs
  | @fieldCons k n v s t fs q hn h hfs ih ihs =>
    intro x r rest he hx hf hr p hp
    generalize hc : List.map (fun p : Str × Value T => (p.1, p.2.removeContext)) ((n, v) :: fs) = ps at hx
    have hne : fs ≠ [] := by rintro rfl; exact (shown_cat o hfs 0).2.2.1 rfl
    cases hx with
    | field1 => simp at hc; exact absurd hc.2 hne
    | @fieldCons k' v' xn y w1 w2 w3 w4 fs' x hk hw1 hw2 hy hw3 hw4 hx =>
      simp only [List.map_cons, List.cons.injEq, Prod.mk.injEq] at hc
      obtain ⟨⟨rfl, rfl⟩, rfl⟩ := hc
      have hs : FieldName u n s := shownName_field hn
      have hcol : ∀ {q}, HeadNot (identCh u) (':' :: q) := HeadNot_cons.2 (identCh_ascii_false (by decide) (by decide) (by decide))
      have h1 := hs.parse (rest := ':' :: (o.space ++ (t ++ (',' :: (o.gap k ++ (q ++ rest)))))) hcol 0
      have h2 := hk.parse (rest := w1 ++ ':' :: (w2 ++ (y ++ (w3 ++ ',' :: (w4 ++ (x ++ r)))))) (headNot_ws_append hw1 (fun _ => ws_not_identCh) hcol) 0
      have e1 : s ++ ':' :: (o.space ++ (t ++ (',' :: (o.gap k ++ (q ++ rest))))) = xn ++ (w1 ++ ':' :: (w2 ++ (y ++ (w3 ++ ',' :: (w4 ++ (x ++ r)))))) := by
        simpa using he
      rw [e1, h2] at h1
      simp at h1
      obtain ⟨rfl, e2⟩ := ws_cancel_cons (ws_false_ascii (by decide) (by decide)) hw1 h1.1.symm
      have hg := noCustom_goodHead hy
      obtain ⟨-, e3⟩ := ws_cancel ho.space hw2 ((h.goodHead ho).append _) (hg.append _) e2
      have hf' : PlainFollow y (w3 ++ ',' :: (w4 ++ (x ++ r))) := fun _ => notNumCont_ws hw3 ⟨by decide, by decide⟩
      have hv := ih y _ _ e3 hy hf' ⟨by decide, by decide⟩
      obtain ⟨-, e4⟩ := same_end ho h hv e3 hy hf' ⟨by decide, by decide⟩
      obtain ⟨rfl, e5⟩ := ws_cancel_cons (ws_false_ascii (by decide) (by decide)) hw3 e4
      obtain ⟨-, e6⟩ := ws_cancel (ho.gap k) hw4 ((hfs.goodHead ho).append _) ((noCustom_goodHead hx).append _) e5
      rcases List.mem_cons.1 hp with rfl | hp
      · exact hv
      · refine ihs x r rest e6 hx ?_ hr p hp
        rintro ⟨a, b, rfl, hb⟩
        exact hf ⟨(xn ++ [] ++ ':' :: w2 ++ y) ++ [] ++ ',' :: w4 ++ a, b, by simp, hb⟩
  | val1 h ih =>
    intro x r rest he hx hf hr p hp
    simp at hp; subst hp
    cases hx with
    | val1 hx => exact ih x r rest he hx hf hr
    | valCons _ _ _ hs => exfalso; cases hs
  | @valCons k v t vs q h hfs ih ihs =>
    intro x r rest he hx hf hr p hp
    generalize hc : List.map Value.removeContext (v :: vs) = ps at hx
    have hne : vs ≠ [] := by rintro rfl; exact (shown_cat o hfs 0).2.2.2 rfl
    cases hx with
    | val1 => simp at hc; exact absurd hc.2 hne
    | @valCons v' y w3 w4 vs' x hy hw3 hw4 hx =>
      simp only [List.map_cons, List.cons.injEq] at hc
      obtain ⟨rfl, rfl⟩ := hc
      have e3 : t ++ (',' :: (o.gap k ++ (q ++ rest))) = y ++ (w3 ++ ',' :: (w4 ++ (x ++ r))) := by simpa using he
      have hf' : PlainFollow y (w3 ++ ',' :: (w4 ++ (x ++ r))) := fun _ => notNumCont_ws hw3 ⟨by decide, by decide⟩
      have hv := ih y _ _ e3 hy hf' ⟨by decide, by decide⟩
      obtain ⟨-, e4⟩ := same_end ho h hv e3 hy hf' ⟨by decide, by decide⟩
      obtain ⟨rfl, e5⟩ := ws_cancel_cons (ws_false_ascii (by decide) (by decide)) hw3 e4
      obtain ⟨-, e6⟩ := ws_cancel (ho.gap k) hw4 ((hfs.goodHead ho).append _) ((noCustom_goodHead hx).append _) e5
      rcases List.mem_cons.1 hp with rfl | hp
      · exact hv
      · refine ihs x r rest e6 hx ?_ hr p hp
        rintro ⟨a, b, rfl, hb⟩
        exact hf ⟨y ++ [] ++ ',' :: w4 ++ a, b, by simp, hb⟩

end SV
