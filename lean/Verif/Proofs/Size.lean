import Verif.Proofs.ParseSound
import Verif.Proofs.ParseInv
import Verif.Proofs.Decode
/-
Sizes: of what is parsed and decoded, and of the recursion.
-/
namespace SV

variable {T : Type} {u : Uni}

/-! ### The recursion of the parser -/

def PExt {α : Type} (f g : Toks → Option α) : Prop := ∀ t r, f t = some r → g t = some r

theorem sepRest_ext {α ε : Type} {f g : Toks → Option (Except ε α × Toks)} (h : PExt f g) (sep : Toks → Bool × Toks) :
    ∀ fuel acc t r, sepRest f sep fuel acc t = some r → sepRest g sep fuel acc t = some r := by
  intro fuel
  induction fuel with
  | zero => intro acc t r h; cases h
  | succ n ih =>
    intro acc t r hr
    unfold sepRest at hr ⊢
    cases hs : sep t with
    | mk b t1 =>
      rw [hs] at hr
      cases b with
      | false => exact hr
      | true =>
        simp only at hr ⊢
        cases hf : f t1 with
        | none => rw [hf] at hr; cases hr
        | some x =>
          rw [hf] at hr; rw [h _ _ hf]
          obtain ⟨e, t2⟩ := x
          cases e with
          | error e => exact hr
          | ok a => exact ih _ _ _ hr

theorem sepByErr_ext {α ε : Type} {f g : Toks → Option (Except ε α × Toks)} (h : PExt f g) (sep : Toks → Bool × Toks) :
    PExt (sepByErr f sep) (sepByErr g sep) := by
  intro t r hr
  unfold sepByErr at hr ⊢
  cases hf : f t with
  | none => rw [hf] at hr; cases hr
  | some x =>
    rw [hf] at hr; rw [h _ _ hf]
    obtain ⟨e, t2⟩ := x
    cases e with
    | error e => exact hr
    | ok a => exact sepRest_ext h sep _ _ _ _ hr

theorem parseField_ext {f g : Toks → VRes} (h : PExt f g) : PExt (parseField u f) (parseField u g) := by
  intro t r hr
  unfold parseField at hr ⊢
  cases h1 : parseFieldName u t with
  | mk x t1 =>
    rw [h1] at hr
    cases x with
    | error e => exact hr
    | ok n =>
      simp only at hr ⊢
      cases h2 : skipSpacedSep u ':' t1 with
      | mk b t2 =>
        rw [h2] at hr
        cases b with
        | false => exact hr
        | true =>
          simp only at hr ⊢
          cases hf : f t2 with
          | none => rw [hf] at hr; cases hr
          | some x => rw [hf] at hr; rw [h _ _ hf]; exact hr

theorem parseNamed_ext {f g : Toks → VRes} (h : PExt f g) : PExt (parseNamedComposite u f) (parseNamedComposite u g) := by
  intro t r hr
  unfold parseNamedComposite at hr ⊢
  cases h1 : t.token '{' with
  | mk b t1 =>
    rw [h1] at hr
    cases b with
    | false => exact hr
    | true =>
      simp only at hr ⊢
      cases h2 : (skipWs u t1).token '}' with
      | mk b t2 =>
        rw [h2] at hr
        cases b with
        | true => exact hr
        | false =>
          simp only at hr ⊢
          cases hf : sepByErr (parseField u f) (skipSpacedSep u ',') t2 with
          | none => rw [hf] at hr; cases hr
          | some x => rw [hf] at hr; rw [sepByErr_ext (parseField_ext h) _ _ _ hf]; exact hr

theorem parseUnnamed_ext {f g : Toks → VRes} (h : PExt f g) : PExt (parseUnnamedComposite u f) (parseUnnamedComposite u g) := by
  intro t r hr
  unfold parseUnnamedComposite at hr ⊢
  cases h1 : t.token '(' with
  | mk b t1 =>
    rw [h1] at hr
    cases b with
    | false => exact hr
    | true =>
      simp only at hr ⊢
      cases h2 : (skipWs u t1).token ')' with
      | mk b t2 =>
        rw [h2] at hr
        cases b with
        | true => exact hr
        | false =>
          simp only at hr ⊢
          cases hf : sepByErr f (skipSpacedSep u ',') t2 with
          | none => rw [hf] at hr; cases hr
          | some x => rw [hf] at hr; rw [sepByErr_ext h _ _ _ hf]; exact hr

theorem orAlt_ext {α : Type} {a b : RRes α} {k l : Unit → RRes α} (h1 : ∀ r, a = some r → b = some r) (h2 : ∀ r, k () = some r → l () = some r) :
    ∀ r, orAlt a k = some r → orAlt b l = some r := by
  intro r hr
  cases a with
  | none => cases hr
  | some x =>
    rw [h1 _ rfl]
    obtain ⟨e, t⟩ := x
    match e, hr with
    | .ok _, hr => exact hr
    | .error (some _), hr => exact hr
    | .error none, hr => exact h2 _ hr

theorem map_ext {α β : Type} {a b : RRes α} (f : PRes α → PRes β) (h1 : ∀ r, a = some r → b = some r) : ∀ r, a.map f = some r → b.map f = some r := by
  intro r hr
  cases a with
  | none => cases hr
  | some x => rw [h1 _ rfl]; exact hr

theorem parseVariant_ext {f g : Toks → VRes} (h : PExt f g) : PExt (parseVariant u f) (parseVariant u g) := by
  intro t r hr
  unfold parseVariant at hr ⊢
  cases h1 : parseOptionalVariantIdent u t with
  | mk x t1 =>
    rw [h1] at hr
    cases x with
    | none => exact hr
    | some n =>
      simp only at hr ⊢
      generalize hA : orAlt (parseNamedComposite u f (skipWs u t1)) _ = A at hr
      cases A with
      | none => cases hr
      | some x =>
        rw [orAlt_ext (parseNamed_ext h _) (orAlt_ext (parseUnnamed_ext h _) (fun _ h => h)) _ hA]
        exact hr

theorem parseBuiltin_ext {f g : Toks → VRes} (h : PExt f g) : PExt (parseBuiltin u f) (parseBuiltin u g) := by
  intro t r hr
  unfold parseBuiltin at hr ⊢
  simp only at hr ⊢
  generalize hA : orAlt (some ((parseBool t).map Value.bool)) _ = A at hr
  cases A with
  | none => cases hr
  | some x =>
    rw [orAlt_ext (fun _ h => h) (orAlt_ext (fun _ h => h) (orAlt_ext (fun _ h => h) (orAlt_ext (fun _ h => h)
      (orAlt_ext (map_ext _ (parseNamed_ext h t)) (orAlt_ext (map_ext _ (parseUnnamed_ext h t)) (orAlt_ext (fun _ h => h)
        (orAlt_ext (map_ext _ (parseVariant_ext h t)) (fun _ h => h)))))))) _ hA]
    exact hr

theorem parseValueN_succ (cps : List CustomParser) : ∀ n, PExt (parseValueN u cps n) (parseValueN u cps (n + 1)) := by
  intro n
  induction n with
  | zero => intro t r h; cases h
  | succ n ih =>
    intro t r h
    unfold parseValueN at h ⊢
    unfold parseValueStep at h ⊢
    split
    · next h1 => rw [h1] at h; exact h
    · next h1 => rw [h1] at h; exact h
    · next h1 => rw [h1] at h; exact parseBuiltin_ext ih _ _ h

theorem parseValueN_mono (cps : List CustomParser) {n m : Nat} (h : n ≤ m) : PExt (parseValueN u cps n) (parseValueN u cps m) := by
  induction h with
  | refl => intro t r h; exact h
  | step _ ih => intro t r h; exact parseValueN_succ cps _ _ _ (ih _ _ h)

/-- A recursion depth of one more than the number of opening brackets is enough. -/
theorem parse_depth (cps : List CustomParser) (s : Str) :
    ∃ r t, parseValueN u cps (brackets s + 1) (Toks.new s) = some (r, t) ∧ parse u cps s = some (r, t.rest) := by
  obtain ⟨r, t, h, -⟩ := parseValueN_brackets (u := u) cps (brackets s + 1) (Toks.new s) (by simp [Toks.new])
  refine ⟨r, t, h, ?_⟩
  have := parseValueN_mono cps (Nat.succ_le_succ (brackets_le s)) _ _ h
  simp [parse, this]

theorem parse_needs_depth (n o : Nat) : parseValueN u [] n ⟨List.replicate n '(', o⟩ = none := by
  induction n generalizing o with
  | zero => rfl
  | succ n ih =>
    have hnw : u.ws '(' = false := by rw [u.ws_ascii _ (by decide)]; decide
    have h0 : ∀ o, skipWs u ⟨List.replicate n '(', o⟩ = ⟨List.replicate n '(', o⟩ := by
      intro o
      cases n with
      | zero => simp [skipWs, Toks.skipWhile, Toks.takeWhile, takeWhileT]
      | succ n => simp [skipWs, Toks.skipWhile, Toks.takeWhile, takeWhileT, List.replicate_succ, hnw]
    have h1 : ∀ o, Toks.token ')' ⟨List.replicate n '(', o⟩ = (false, ⟨List.replicate n '(', o⟩) := by
      intro o
      cases n with
      | zero => rfl
      | succ n => simp [List.replicate_succ, Toks.token]
    have h3 : Toks.token '(' ⟨'(' :: List.replicate n '(', o⟩ = (true, ⟨List.replicate n '(', o + '('.utf8Size⟩) := by simp [Toks.token]
    have h2 : parseUnnamedComposite u (parseValueN u [] n) ⟨'(' :: List.replicate n '(', o⟩ = none := by
      simp only [parseUnnamedComposite, h3, h0, h1, sepByErr, ih]
    have h4 : parseNamedComposite u (parseValueN u [] n) ⟨'(' :: List.replicate n '(', o⟩ = some (.error none, ⟨'(' :: List.replicate n '(', o⟩) := by
      simp [parseNamedComposite, Toks.token]
    have h5 : (parseNumber ⟨'(' :: List.replicate n '(', o⟩) = (.error none, ⟨'(' :: List.replicate n '(', o⟩) := by
      simp [parseNumber, Toks.token, takeWhileS, numPred, isDigit]
    have h6 : (parseBool ⟨'(' :: List.replicate n '(', o⟩) = (.error none, ⟨'(' :: List.replicate n '(', o⟩) := by
      simp [parseBool, Toks.tokens, Toks.tokens.go, Toks.token]
    have h7 : (parseChar ⟨'(' :: List.replicate n '(', o⟩) = (.error none, ⟨'(' :: List.replicate n '(', o⟩) := by
      simp [parseChar, Toks.token]
    have h8 : (parseString ⟨'(' :: List.replicate n '(', o⟩) = (.error none, ⟨'(' :: List.replicate n '(', o⟩) := by
      simp [parseString, Toks.token]
    unfold parseValueN
    simp only [List.replicate_succ, parseValueStep, runCustom, parseBuiltin, h2, h4, h5, h6, h7, h8, PRes.map, orAlt, Option.map]

/-! ### The size of what is parsed -/

theorem strBody_length {s t : Str} (h : StrBody s t) : s.length ≤ t.length := by
  induction h <;> simp <;> omega

theorem strLit_length {s t : Str} (h : StrLit s t) : s.length + 2 ≤ t.length := by
  obtain ⟨h⟩ := h
  have := strBody_length h
  simp; omega

theorem fieldName_length {s t : Str} (h : FieldName u s t) : s.length ≤ t.length := by
  cases h with
  | ident h => exact Nat.le_refl _
  | quoted h => have := strLit_length h; omega

theorem variantName_length {s t : Str} (h : VariantName u s t) : s.length ≤ t.length := by
  cases h with
  | ident h => exact Nat.le_refl _
  | quoted h => have := strLit_length h; simp; omega

theorem decVal_length {s : Str} {n : Nat} (h : DecVal s n) : 1 ≤ s.length := by
  cases h <;> simp

theorem numLit_length {p : Primitive} {s : Str} (h : NumLit p s) : 1 ≤ s.length := by
  cases h with
  | plain h => exact decVal_length h
  | plus h => simp
  | minus h => simp

/-- The size of what a text stands for. -/
def Cat.size : Cat → Nat
  | .val v => v.size + v.nameSize
  | .blt v => v.size + v.nameSize
  | .comp c => (Value.mk (.composite c) ()).size + (Value.mk (.composite c) ()).nameSize
  | .fields fs => fieldsSize fs + fieldsNameSize fs
  | .vals vs => valuesSize vs + valuesNameSize vs

theorem txt_size {X : Value Unit → Str → Prop} (hX : ∀ v s, X v s → v.size + v.nameSize ≤ s.length) {k : Cat} {s : Str} (h : Txt u X k s) :
    k.size ≤ s.length := by
  induction h with
  | builtin h ih => exact ih
  | custom h => exact hX _ _ h
  | true_ => simp [Cat.size, Value.bool, Value.primitive, Value.size, Value.nameSize]
  | false_ => simp [Cat.size, Value.bool, Value.primitive, Value.size, Value.nameSize]
  | char h => cases h <;> simp [Cat.size, Value.char, Value.primitive, Value.size, Value.nameSize]
  | string h => have := strLit_length h; simp [Cat.size, Value.string, Value.primitive, Value.size, Value.nameSize]; omega
  | number h =>
    have := numLit_length h
    cases h <;> simpa [Cat.size, Value.primitive, Value.size, Value.nameSize] using this
  | bits => simp [Cat.size, Value.bitSequence, Value.size, Value.nameSize, bitChars]; omega
  | composite h ih => exact ih
  | @variant n c s t w hn hw h ih =>
    have := variantName_length hn
    cases c <;> simp [Cat.size, Value.variant, Value.size, Value.nameSize] at ih ⊢ <;> omega
  | namedEmpty => simp [Cat.size, Value.size, Value.nameSize, fieldsSize, fieldsNameSize]
  | unnamedEmpty => simp [Cat.size, Value.size, Value.nameSize, valuesSize, valuesNameSize]
  | named hw1 hw2 h ih => simp [Cat.size, Value.size, Value.nameSize] at ih ⊢; omega
  | unnamed hw1 hw2 h ih => simp [Cat.size, Value.size, Value.nameSize] at ih ⊢; omega
  | field1 hk hw1 hw2 h ih =>
    have := fieldName_length hk
    simp [Cat.size, fieldsSize, fieldsNameSize] at ih ⊢; omega
  | fieldCons hk hw1 hw2 h hw3 hw4 hs ih ih2 =>
    have := fieldName_length hk
    simp [Cat.size, fieldsSize, fieldsNameSize] at ih ih2 ⊢; omega
  | val1 h ih => simp [Cat.size, valuesSize, valuesNameSize] at ih ⊢; omega
  | valCons h hw3 hw4 hs ih ih2 => simp [Cat.size, valuesSize, valuesNameSize] at ih ih2 ⊢; omega

/-- The values that a text stands for. -/
def Cat.values : Cat → List (Value Unit)
  | .val v => [v]
  | .blt v => [v]
  | .comp c => [.mk (.composite c) ()]
  | .fields fs => fs.map (fun f => f.2)
  | .vals vs => vs

theorem deep_leaf {v : Value T} {n : Nat} (h : Deep v n) (hv : v.children = []) : n = 1 := by
  cases h with
  | here => rfl
  | inside hw _ => rw [hv] at hw; cases hw

theorem txt_deep {X : Value Unit → Str → Prop} (hX : ∀ v s, X v s → ∀ n, Deep v n → n ≤ brackets s + 1) {k : Cat} {s : Str} (h : Txt u X k s) :
    ∀ v ∈ k.values, ∀ n, Deep v n → n ≤ brackets s + 1 := by
  have leaf : ∀ {v : Value Unit} {s : Str}, v.children = [] → ∀ w ∈ [v], ∀ n, Deep w n → n ≤ brackets s + 1 := by
    intro v s hv w hw n hd
    cases List.mem_singleton.1 hw
    have := deep_leaf hd hv
    omega
  induction h with
  | builtin h ih => exact ih
  | custom h => intro v hv n hd; cases List.mem_singleton.1 hv; exact hX _ _ h n hd
  | true_ => exact leaf rfl
  | false_ => exact leaf rfl
  | char h => exact leaf rfl
  | string h => exact leaf rfl
  | number h => exact leaf rfl
  | bits => exact leaf rfl
  | composite h ih => exact ih
  | @variant n c s t w hn hw h ih =>
    intro v hv m hd
    cases List.mem_singleton.1 hv
    have : Deep (Value.mk (.composite c) ()) m := by
      cases hd with
      | here => exact .here
      | inside h1 h2 => exact .inside (by cases c <;> exact h1) h2
    have := ih _ (List.mem_singleton.2 rfl) m this
    simp only [brackets_append]; omega
  | namedEmpty => exact leaf rfl
  | unnamedEmpty => exact leaf rfl
  | @named fs w1 w2 s hw1 hw2 h ih =>
    intro v hv m hd
    cases List.mem_singleton.1 hv
    have hb : brackets s + 1 ≤ brackets ('{' :: w1 ++ s ++ w2 ++ ['}']) := by
      simp only [brackets_append]
      have : brackets ('{' :: w1) = 1 + brackets w1 := by simp [brackets]; omega
      omega
    cases hd with
    | here => omega
    | inside h1 h2 => have := ih _ h1 _ h2; omega
  | @unnamed vs w1 w2 s hw1 hw2 h ih =>
    intro v hv m hd
    cases List.mem_singleton.1 hv
    have hb : brackets s + 1 ≤ brackets ('(' :: w1 ++ s ++ w2 ++ [')']) := by
      simp only [brackets_append]
      have : brackets ('(' :: w1) = 1 + brackets w1 := by simp [brackets]; omega
      omega
    cases hd with
    | here => omega
    | inside h1 h2 => have := ih _ h1 _ h2; omega
  | @field1 k v n s w1 w2 hk hw1 hw2 h ih =>
    intro x hx m hd
    have := ih x hx m hd
    have e : n ++ w1 ++ ':' :: w2 ++ s = (n ++ w1 ++ ':' :: w2) ++ s := by simp
    rw [e, brackets_append]; omega
  | @fieldCons k v n s w1 w2 w3 w4 fs t hk hw1 hw2 h hw3 hw4 hs ih ih2 =>
    intro x hx m hd
    have e : (n ++ w1 ++ ':' :: w2 ++ s) ++ w3 ++ ',' :: w4 ++ t = (n ++ w1 ++ ':' :: w2) ++ s ++ (w3 ++ ',' :: w4) ++ t := by simp
    rw [e, brackets_append, brackets_append, brackets_append]
    rcases List.mem_cons.1 hx with rfl | hx
    · have := ih _ (List.mem_singleton.2 rfl) m hd; omega
    · have := ih2 x hx m hd; omega
  | val1 h ih => exact ih
  | @valCons v s w3 w4 vs t h hw3 hw4 hs ih ih2 =>
    intro x hx m hd
    have e : s ++ w3 ++ ',' :: w4 ++ t = s ++ (w3 ++ ',' :: w4) ++ t := by simp
    rw [e, brackets_append, brackets_append]
    rcases List.mem_cons.1 hx with rfl | hx
    · have := ih _ (List.mem_singleton.2 rfl) m hd; omega
    · have := ih2 x hx m hd; omega

end SV
