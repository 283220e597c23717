import Verif.Proofs.MacroComplete
/-
C54: `value!(..)` builds the value that is written.
-/
namespace SV
open Macro

variable {R : Rust}

/-- C54. With a recursion limit of three times the number of tokens (or more), `value!(ts)` compiles if and only if `ts` is the
notation of a value (`Denotes`: nothing or an expression, `(..)`, `{..}`, `name(..)`, `name{..}` with values, or names and values,
separated by commas), and then it is that value. -/
theorem C54_exact (R : Rust) (ts : List TT) (v : Value Unit) (limit : Nat) (hl : 3 * countAll ts + 1 ≤ limit) :
    valueMacro R limit ts = some v ↔ Denotes R ts v :=
  ⟨fun h => (sound limit).base _ _ h, fun h => complete h _ hl⟩

/-- C54. Whatever the recursion limit, what compiles is the value that is written; so that the limit cannot change the value. -/
theorem C54_any_limit (R : Rust) (ts : List TT) (v : Value Unit) (limit : Nat) (h : valueMacro R limit ts = some v) :
    Denotes R ts v ∧ ∀ limit' v', valueMacro R limit' ts = some v' → v' = v := by
  have hd := (sound limit).base _ _ h
  refine ⟨hd, fun l' v' h' => ?_⟩
  have h1 := complete hd _ (Nat.le_refl _)
  have h2 := complete ((sound l').base _ _ h') _ (Nat.le_refl _)
  rw [h1] at h2
  exact (Option.some.inj h2).symm

/-- A value in a list: it denotes `v`, and if it begins like a composite or variant it is just that. -/
def ListElem (R : Rust) (c : List TT) (v : Value Unit) : Prop := c ≠ [] ∧ (Begins c → Shape c) ∧ Denotes R c v

/-- The elements with commas between them. -/
def commaList : List (List TT) → List TT
  | [] => []
  | [c] => c
  | c :: r => c ++ comma :: commaList r

theorem Macro.items_commaList {cs : List (List TT × Value Unit)} (h : ∀ p ∈ cs, ListElem R p.1 p.2) :
    Items R (commaList (cs.map (·.1))) (cs.map (·.2)) := by
  induction cs with
  | nil => exact .nil
  | cons p r ih =>
    obtain ⟨h1, h2, h3⟩ := h p (by simp)
    have ih := ih (fun q hq => h q (by simp [hq]))
    cases r with
    | nil => exact .last h1 h2 h3
    | cons q r => exact .cons h1 h2 h3 ih

theorem Macro.fields_commaList {cs : List (List TT × Str × List TT × Value Unit)}
    (h : ∀ p ∈ cs, Key R p.1 p.2.1 ∧ ListElem R p.2.2.1 p.2.2.2) :
    Fields R (commaList (cs.map fun p => p.1 ++ colon :: p.2.2.1)) (cs.map fun p => (p.2.1, p.2.2.2)) := by
  induction cs with
  | nil => exact .empty
  | cons p r ih =>
    obtain ⟨hk, h1, h2, h3⟩ := h p (by simp)
    have ih := ih (fun q hq => h q (by simp [hq]))
    cases r with
    | nil => exact .lastField hk h1 h2 h3
    | cons q r =>
      have := Fields.field hk h1 h2 h3 ih
      simpa [commaList] using this

/-- C54. `value!((c1, .., cn))` is the unnamed composite of the values of `c1`, .., `cn`, in order, and `value!(name(c1, .., cn))` the variant
of that name with them. -/
theorem C54_unnamed (R : Rust) (cs : List (List TT × Value Unit)) (h : ∀ p ∈ cs, ListElem R p.1 p.2) (name : Str) :
    ∃ N, ∀ limit, N ≤ limit →
      valueMacro R limit [.group .paren (commaList (cs.map (·.1)))] = some (.mk (.composite (.unnamed (cs.map (·.2)))) ()) ∧
      valueMacro R limit [.ident name, .group .paren (commaList (cs.map (·.1)))] =
        some (.mk (.variant (.mk name (.unnamed (cs.map (·.2))))) ()) := by
  have hi := items_commaList h
  refine ⟨lim [.ident name, .group .paren (commaList (cs.map (·.1)))], fun l hl => ⟨?_, ?_⟩⟩
  · refine complete (.tuple hi) _ ?_
    simp only [lim, countAll, TT.count] at hl ⊢
    omega
  · exact complete (.tupleVariant hi) _ hl

/-- C54. `value!({k1: c1, .., kn: cn})` is the named composite of those names and values, in order, and `value!(name { .. })` the variant of that name
with them. Repeated names are kept. -/
theorem C54_named (R : Rust) (cs : List (List TT × Str × List TT × Value Unit))
    (h : ∀ p ∈ cs, Key R p.1 p.2.1 ∧ ListElem R p.2.2.1 p.2.2.2) (name : Str) :
    ∃ N, ∀ limit, N ≤ limit →
      valueMacro R limit [.group .brace (commaList (cs.map fun p => p.1 ++ colon :: p.2.2.1))] =
        some (.mk (.composite (.named (cs.map fun p => (p.2.1, p.2.2.2)))) ()) ∧
      valueMacro R limit [.ident name, .group .brace (commaList (cs.map fun p => p.1 ++ colon :: p.2.2.1))] =
        some (.mk (.variant (.mk name (.named (cs.map fun p => (p.2.1, p.2.2.2))))) ()) := by
  have hi := fields_commaList h
  refine ⟨lim [.ident name, .group .brace (commaList (cs.map fun p => p.1 ++ colon :: p.2.2.1))], fun l hl => ⟨?_, ?_⟩⟩
  · refine complete (.struct hi) _ ?_
    simp only [lim, countAll, TT.count] at hl ⊢
    omega
  · exact complete (.structVariant hi) _ hl

/-- C54. A name may be written as an identifier or as a literal, and then is the identifier or the value of the literal (without quotes). -/
theorem C54_names (R : Rust) (s text : Str) :
    (Whole R [.ident s] → Key R [.ident s] s) ∧ (Whole R [.lit text s] → Key R [.lit text s] s) := by
  have pre : ∀ t : TT, Whole R [t] → ∀ p q, [t] = p ++ q → R.parse p ≠ .broken := by
    intro t hw p q hpq
    cases p with
    | nil => simp [R.parse_nil]
    | cons x y =>
      simp only [List.cons_append, List.cons.injEq, List.nil_eq, List.append_eq_nil_iff] at hpq
      obtain ⟨rfl, rfl, rfl⟩ := hpq
      rw [show R.parse [t] = .upTo [t] [] from hw]
      simp
  exact ⟨fun hw => .plain hw (pre _ hw) (by simp [comma]) (by simp [colon]) (by simp),
    fun hw => .plain hw (pre _ hw) (by simp [comma]) (by simp [colon]) (by simp)⟩

theorem Macro.Items.comma {ts : List TT} {vs : List (Value Unit)} (h : Items R ts vs) (h0 : ts ≠ [])
    (hl : ts.getLast? ≠ some Macro.comma) : Items R (ts ++ [Macro.comma]) vs := by
  induction vs generalizing ts with
  | nil => cases h; exact absurd rfl h0
  | cons v vs ih =>
    cases h with
    | last h1 h2 h3 => exact .cons h1 h2 h3 .nil
    | @cons c _ r _ h1 h2 h3 h4 =>
      have : r ≠ [] := by
        rintro rfl
        exact hl (by simp)
      have := ih h4 this (by
        intro hh
        apply hl
        rw [List.getLast?_append, List.getLast?_cons, hh]
        rfl)
      have := Items.cons h1 h2 h3 this
      simpa using this

theorem Macro.Fields.comma {ts : List TT} {fs : List (Str × Value Unit)} (h : Fields R ts fs) (h0 : ts ≠ [])
    (hl : ts.getLast? ≠ some Macro.comma) : Fields R (ts ++ [Macro.comma]) fs := by
  induction fs generalizing ts with
  | nil => cases h; exact absurd rfl h0
  | cons f fs ih =>
    cases h with
    | lastField hk h1 h2 h3 =>
      have := Fields.field hk h1 h2 h3 .empty
      simpa using this
    | @field ks _ c _ r _ hk h1 h2 h3 h4 =>
      have : r ≠ [] := by
        rintro rfl
        apply hl
        rw [List.getLast?_append, List.getLast?_cons, List.getLast?_append, List.getLast?_cons]
        rfl
      have := ih h4 this (by
        intro hh
        apply hl
        rw [List.getLast?_append, List.getLast?_cons, List.getLast?_append, List.getLast?_cons, hh]
        rfl)
      have := Fields.field hk h1 h2 h3 this
      simpa using this

/-- C54. Trailing commas are optional: one more comma before the closing delimiter changes nothing (unless there is one already, or nothing is
enclosed). -/
theorem C54_trailing_comma (R : Rust) (pre : List TT) (d : Delim) (ts : List TT) (v : Value Unit) (limit : Nat)
    (hd : d = .paren ∨ d = .brace) (hp : pre = [] ∨ ∃ n, pre = [.ident n]) (h0 : ts ≠ []) (hl : ts.getLast? ≠ some comma)
    (h : valueMacro R limit (pre ++ [.group d ts]) = some v) :
    ∃ N, ∀ limit', N ≤ limit' → valueMacro R limit' (pre ++ [.group d (ts ++ [comma])]) = some v := by
  have hden := (sound limit).base _ _ h
  refine ⟨lim (pre ++ [.group d (ts ++ [comma])]), fun l hl' => complete ?_ _ hl'⟩
  rcases hp with rfl | ⟨n, rfl⟩ <;> rcases hd with rfl | rfl
  · cases hden with
    | tuple hi => exact .tuple (hi.comma h0 hl)
    | expr _ hs _ => exact absurd (.tuple _) hs
  · cases hden with
    | struct hi => exact .struct (hi.comma h0 hl)
    | expr _ hs _ => exact absurd (.struct _) hs
  · cases hden with
    | tupleVariant hi => exact .tupleVariant (hi.comma h0 hl)
    | expr _ hs _ => exact absurd (.tupleVariant _ _) hs
  · cases hden with
    | structVariant hi => exact .structVariant (hi.comma h0 hl)
    | expr _ hs _ => exact absurd (.structVariant _ _) hs

theorem Macro.unnamed_rejects {s : List TT} (hs : Shape s) {t : TT} (ht : t ≠ comma) (r : List TT) (n : Nat) (acc : List Frag) :
    unnamed R n acc (.toks (s ++ t :: r)) [] = none := by
  cases n with
  | zero => rfl
  | succ n =>
    rw [unnamed_begins _ _ hs]
    cases n with
    | zero => rfl
    | succ n => exact unnamed_frag_other _ _ _ _ _ ht

/-- C54 (a gap). In a list, an expression that begins with parentheses, braces or a call and goes on, as `f(x).y` or `(a) + b`, never compiles;
although it would alone, as `value!(f(x).y)`. -/
theorem C54_gap (R : Rust) (s : List TT) (hs : Shape s) (t : TT) (ht : t ≠ comma) (r : List TT) (limit : Nat) :
    valueMacro R limit [.group .paren (s ++ t :: r)] = none ∧
    (∀ name, valueMacro R limit [.ident name, .group .paren (s ++ t :: r)] = none) ∧
    (∀ v, Whole R (s ++ t :: r) → R.value (s ++ t :: r) = some v → 0 < limit → valueMacro R limit (s ++ t :: r) = some v) := by
  refine ⟨?_, ?_, ?_⟩
  · cases limit with
    | zero => rfl
    | succ n =>
      unfold valueMacro
      have h0 : s ++ t :: r ≠ [] := by simp
      have := unnamed_rejects (R := R) hs ht r n []
      cases hc : s ++ t :: r with
      | nil => exact absurd hc h0
      | cons x y => rw [hc] at this; simp [base, this]
  · intro name
    cases limit with
    | zero => rfl
    | succ n =>
      unfold valueMacro
      simp [base, unnamed_rejects hs ht r n []]
  · intro v hw hv hl
    obtain ⟨n, rfl⟩ : ∃ n', limit = n' + 1 := ⟨limit - 1, by omega⟩
    unfold valueMacro
    have hsh : ¬ Shape (s ++ t :: r) := by
      intro h
      cases hs <;> cases h
    rw [base_plain _ (by simp) hsh, show R.parse _ = _ from hw]
    exact hv

/-- C54 (a gap). A name that cannot begin an expression (as the keyword `type`), or that is only part of one (as the keyword `match`), does not
compile if it is not written as a literal. -/
theorem C54_keywords (R : Rust) (s : Str) (r : List TT) (limit : Nat)
    (h : (∀ p, R.parse (.ident s :: p) = .absent) ∨ R.parse [.ident s] = .broken) :
    valueMacro R limit [.group .brace (.ident s :: colon :: r)] = none := by
  cases hv : valueMacro R limit [.group .brace (.ident s :: colon :: r)] with
  | none => rfl
  | some v =>
    exfalso
    have hd := (sound limit).base _ _ hv
    have key : ∀ ks k tail, Key R ks k → .ident s :: colon :: r = ks ++ colon :: tail → False := by
      intro ks k tail hk he
      cases hk with
      | paren hw => simp at he
      | plain hw hnb _ _ _ =>
        cases ks with
        | nil => exact absurd rfl (whole_ne_nil hw)
        | cons x y =>
          simp only [List.cons_append, List.cons.injEq] at he
          obtain ⟨rfl, _⟩ := he
          rcases h with h | h
          · have := h y
            rw [show R.parse _ = _ from hw] at this
            cases this
          · exact hnb [.ident s] y rfl h
    cases hd with
    | struct hf =>
      generalize he : TT.ident s :: colon :: r = ts at hf
      cases hf with
      | empty => cases he
      | lastField hk _ _ _ => exact key _ _ _ hk he
      | field hk _ _ _ _ => exact key _ _ _ hk he
    | expr _ hs _ => exact hs (.struct _)

/-! ### The hypotheses can be met -/

/-- A small language: an expression is one identifier (other than `type`), literal or group; the value of a literal is a string. -/
def exRust : Rust where
  parse
    | [] => .absent
    | .punct _ :: _ => .absent
    | t :: r => match t with
      | .ident s => if s = ['t', 'y', 'p', 'e'] then .absent else .upTo [.ident s] r
      | t => .upTo [t] r
  value
    | [.lit _ s] => some (Value.string s)
    | _ => none
  stringify _ := []
  parse_nil := rfl
  parse_split := by
    intro ts e rest h
    cases ts with
    | nil => cases h
    | cons t r =>
      cases t with
      | ident s =>
        simp only at h ⊢
        split at h
        · cases h
        · rename_i hs
          cases h
          simp [hs]
      | lit _ _ => cases h; exact ⟨rfl, rfl⟩
      | punct _ => cases h
      | group _ _ => cases h; exact ⟨rfl, rfl⟩
  parse_stop := by
    intro e t rest h _
    cases e with
    | nil => cases h
    | cons x r =>
      cases x with
      | ident s =>
        simp only [List.cons_append] at h ⊢
        split at h
        · cases h
        · rename_i hs
          simp only [Parsed.upTo.injEq] at h
          obtain ⟨h1, h2⟩ := h
          simp only [List.cons.injEq, true_and] at h1
          subst h1
          simp [hs]
      | lit _ _ => simp only [Parsed.upTo.injEq] at h; rw [h.2]; rfl
      | punct _ => cases h
      | group _ _ => simp only [Parsed.upTo.injEq] at h; rw [h.2]; rfl

/-- The literal `"..."`. -/
def exLit (s : String) : TT := .lit ('"' :: s.toList ++ ['"']) s.toList

/-- `value!({ a: ("x", v1("y",)), "b c": {}, (d): "z" })` -/
example : valueMacro exRust 100
    [.group .brace
      [.ident ['a'], colon, .group .paren [exLit "x", comma, .ident ['v', '1'], .group .paren [exLit "y", comma]], comma,
       exLit "b c", colon, .group .brace [], comma, .group .paren [.ident ['d']], colon, exLit "z"]] =
    some (.mk (.composite (.named [
      (['a'], .mk (.composite (.unnamed [Value.string ['x'],
        .mk (.variant (.mk ['v', '1'] (.unnamed [Value.string ['y']]))) ()])) ()),
      (['b', ' ', 'c'], .mk (.composite (.named [])) ()),
      (['d'], Value.string ['z'])])) ()) := by
  rfl

/-- The same is in the grammar. -/
example : ∃ v, Denotes exRust [.group .brace [.ident ['a'], colon, .group .paren [exLit "x", comma]]] v :=
  ⟨_, (C54_any_limit _ _ _ 100 rfl).1⟩

example : ListElem exRust [exLit "x"] (Value.string ['x']) := by
  have hs : ¬ Begins [exLit "x"] := by
    rintro ⟨s, r, hs, he⟩
    cases hs <;> simp [exLit] at he
  exact ⟨by simp, fun h => absurd h hs, .expr rfl (fun h => hs ⟨_, [], h, by simp⟩) rfl⟩

example : Key exRust [.ident ['a']] ['a'] ∧ Key exRust [exLit "b c"] "b c".toList :=
  ⟨(C54_names exRust ['a'] []).1 rfl, (C54_names exRust "b c".toList _).2 rfl⟩

example : valueMacro exRust 100 [.group .brace [.ident "type".toList, colon, exLit "x"]] = none :=
  C54_keywords _ _ _ _ (.inl (fun _ => rfl))

example : valueMacro exRust 100 [.group .brace [exLit "type", colon, exLit "x"]] =
    some (.mk (.composite (.named [("type".toList, Value.string ['x'])])) ()) := rfl

/-- `value!((f("x").y))` does not compile. -/
example : valueMacro exRust 100 [.group .paren [.ident ['f'], .group .paren [exLit "x"], .punct ['.'], .ident ['y']]] = none :=
  (C54_gap exRust [.ident ['f'], .group .paren [exLit "x"]] (.tupleVariant _ _) (.punct ['.']) (by simp [comma]) _ _).1

end SV
