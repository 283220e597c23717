import Verif.Spec.Macro
/-
Lemmas for `Verif.Props.Macro`.
-/
namespace SV
namespace Macro
variable {R : Rust}

theorem nameOf_eq (ts : List TT) : literalAwareStringify R ts = nameOf R ts := by
  unfold literalAwareStringify nameOf
  rfl

theorem Shape.ne_nil {s : List TT} (h : Shape s) : s ≠ [] := by cases h <;> simp

theorem Shape.begins {s : List TT} (h : Shape s) (r : List TT) : Begins (s ++ r) := ⟨s, r, h, rfl⟩

/-! ### The arms -/

theorem unnamed_begins (n : Nat) (acc : List Frag) {s : List TT} (h : Shape s) (r : List TT) :
    unnamed R (n + 1) acc (.toks (s ++ r)) [] = unnamed R n acc (.frag (.call (.toks s))) r := by
  cases h <;> simp [unnamed]

theorem unnamed_plain (n : Nat) (acc : List Frag) {ts : List TT} (h0 : ts ≠ []) (h : ¬ Begins ts) :
    unnamed R (n + 1) acc (.toks ts) [] =
      match R.parse ts with
      | .upTo e [] => evalFrags (base R n) (acc ++ [.call (.frag (.expr e))])
      | .upTo e (.punct [','] :: r) => unnamed R n acc (.frag (.call (.frag (.expr e)))) (comma :: r)
      | _ => none := by
  rw [unnamed.eq_def]
  split
  · rename_i h'; cases h'
  · rename_i ha _; cases ha; exact absurd rfl h0
  · rename_i ha _; cases ha; exact absurd ((Shape.tuple _).begins _) h
  · rename_i ha _; cases ha; exact absurd ((Shape.tupleVariant _ _).begins _) h
  · rename_i ha _; cases ha; exact absurd ((Shape.struct _).begins _) h
  · rename_i ha _; cases ha; exact absurd ((Shape.structVariant _ _).begins _) h
  · rename_i he _ _ _ _ _
    cases he
    simp only [matchExpr]
    cases hp : R.parse ts with
    | absent => rfl
    | broken => rfl
    | upTo e r =>
      cases r with
      | nil => rfl
      | cons t r =>
        simp only [comma]
        split
        · rename_i h'; cases h'
        · rename_i h'; cases h'
        · rename_i ha _; cases ha
        · rename_i ha _; cases ha; rfl
        · rename_i h'
          split
          · rename_i h2; cases h2
          · rename_i h2; cases h2; exact (h' _ _ rfl rfl).elim
          · rfl

theorem unnamed_frag_nil (n : Nat) (acc : List Frag) (f : Frag) :
    unnamed R (n + 1) acc (.frag f) [] = evalFrags (base R n) (acc ++ [.call (.frag f)]) := by
  simp [unnamed, matchExpr]

theorem unnamed_frag_comma (n : Nat) (acc : List Frag) (f : Frag) (r : List TT) :
    unnamed R (n + 1) acc (.frag f) (comma :: r) = unnamed R n (acc ++ [f]) (.toks r) [] := by
  simp [unnamed, matchExpr, comma]

theorem unnamed_frag_other (n : Nat) (acc : List Frag) (f : Frag) (t : TT) (r : List TT) (h : t ≠ comma) :
    unnamed R (n + 1) acc (.frag f) (t :: r) = none := by
  rw [unnamed.eq_def]
  simp only [matchExpr]
  split
  · rename_i h'; cases h'; exact absurd rfl h
  · rfl
  · rename_i h'; cases h'
  · rename_i h'; cases h'
  · rfl

theorem base_plain (n : Nat) {ts : List TT} (h0 : ts ≠ []) (h : ¬ Shape ts) :
    base R (n + 1) (.toks ts) = match R.parse ts with
      | .upTo e [] => R.value e
      | _ => none := by
  rw [base.eq_def]
  split
  · rename_i h'; cases h'
  · rename_i h'; cases h'; exact absurd rfl h0
  · rename_i h'; cases h'; exact absurd (Shape.tuple _) h
  · rename_i h'; cases h'; exact absurd (Shape.struct _) h
  · rename_i h'; cases h'; exact absurd (Shape.struct _) h
  · rename_i h'; cases h'; exact absurd (Shape.structVariant _ _) h
  · rename_i h'; cases h'; exact absurd (Shape.tuple _) h
  · rename_i h'; cases h'; exact absurd (Shape.tupleVariant _ _) h
  · rename_i he _ _ _ _ _ _ _
    cases he
    simp only [matchExpr]
    cases hp : R.parse ts with
    | absent => rfl
    | broken => rfl
    | upTo e r => cases r <;> rfl

theorem namedKey_nil (n : Nat) (acc : List (Str × Frag)) (ks : List TT) (f : Frag) :
    namedKey R (n + 1) acc (.expr ks) f [] = evalPairs (base R n) (acc ++ [(nameOf R ks, f)]) := by
  simp [namedKey, keyText, nameOf_eq]

theorem namedKey_comma (n : Nat) (acc : List (Str × Frag)) (ks : List TT) (f : Frag) (r : List TT) :
    namedKey R (n + 1) acc (.expr ks) f (comma :: r) = named R n (acc ++ [(nameOf R ks, f)]) (.toks []) r := by
  simp [namedKey, keyText, nameOf_eq, comma]

theorem namedKey_other (n : Nat) (acc : List (Str × Frag)) (key : Frag) (f : Frag) (t : TT) (r : List TT) (h : t ≠ comma) :
    namedKey R (n + 1) acc key f (t :: r) = none := by
  rw [namedKey.eq_def]
  split
  · rename_i h'; cases h'
  · rename_i h1 h2 h3 h4 h5; cases h5; exact absurd rfl h
  · rfl
  · rename_i h'; cases h'

theorem colon_begins (n : Nat) (acc : List (Str × Frag)) {k : Arg} {f : Frag} (hk : matchExpr R k = .upTo f [])
    {s : List TT} (h : Shape s) (r : List TT) :
    named R (n + 1) acc k (colon :: (s ++ r)) = namedKey R n acc f (.call (.toks s)) r := by
  cases h <;> simp [named, hk, colon]

theorem colon_nil (n : Nat) (acc : List (Str × Frag)) {k : Arg} {f : Frag} (hk : matchExpr R k = .upTo f []) :
    named R (n + 1) acc k [colon] = none := by
  simp [named, hk, colon]

theorem whole_nil (n : Nat) (acc : List (Str × Frag)) {k : Arg} {f : Frag} (hk : matchExpr R k = .upTo f []) :
    named R (n + 1) acc k [] = none := by
  have h : k ≠ .toks [] := by
    intro h
    subst h
    simp [matchExpr, R.parse_nil] at hk
  cases k with
  | frag f => simp [named, matchExpr]
  | toks ts =>
    cases ts with
    | nil => exact absurd rfl h
    | cons t r => simp [named, hk]

theorem named_broken (n : Nat) (acc : List (Str × Frag)) {k : Arg} (r : List TT) (hk : matchExpr R k = .broken) :
    named R (n + 1) acc k r = none := by
  have h : k ≠ .toks [] := by
    intro h
    subst h
    simp [matchExpr, R.parse_nil] at hk
  cases k with
  | frag f => cases hk
  | toks ts =>
    cases ts with
    | nil => exact absurd rfl h
    | cons t r => simp [named, hk]

/-- What happens at a colon after a key if the value is no composite or variant. -/
theorem colon_plain (n : Nat) (acc : List (Str × Frag)) {k : Arg} {f : Frag} (hk : matchExpr R k = .upTo f [])
    {ts : List TT} (h0 : ts ≠ []) (h : ¬ Begins ts) :
    named R (n + 1) acc k (colon :: ts) =
      match R.parse ts with
      | .broken => none
      | .upTo e [] => namedKey R n acc f (.call (.frag (.expr e))) []
      | .upTo e (.punct [','] :: r) => namedKey R n acc f (.call (.frag (.expr e))) (comma :: r)
      | _ => addToken R (named R n acc) k (colon :: ts) := by
  rw [named.eq_def]
  split
  · rename_i h'; cases h'
  · rename_i h'; cases h'
  · rename_i n' acc' k' rest' h1 h2
    cases h1
    rw [hk]
    simp only [colon] at *
    split
    · rename_i h'; cases h'
    · rename_i h'; cases h'
    · rename_i h'; cases h'; exact absurd rfl h0
    · rename_i h'; cases h'; exact absurd ((Shape.tuple _).begins _) h
    · rename_i h'; cases h'; exact absurd ((Shape.tupleVariant _ _).begins _) h
    · rename_i h'; cases h'; exact absurd ((Shape.struct _).begins _) h
    · rename_i h'; cases h'; exact absurd ((Shape.structVariant _ _).begins _) h
    · rename_i ts' _ _ _ _ _ h3 h4
      cases h3
      cases h4
      simp only [matchExpr]
      cases hp : R.parse ts with
      | absent => rfl
      | broken => rfl
      | upTo e r =>
        cases r with
        | nil => rfl
        | cons t r =>
          simp only [comma]
          split
          · rename_i h'; cases h'
          · rename_i h'; cases h'; rfl
          · rename_i h'; cases h'
          · rename_i h' _
            split
            · rename_i h2; cases h2
            · rename_i h2; cases h2
            · rename_i h2; cases h2; exact (h' _ _ rfl).elim
            · rfl
    · rename_i h1 h2 h3
      exact absurd rfl (h3 _ _ rfl)

/-- Otherwise a token is added to the key. -/
theorem named_add (n : Nat) (acc : List (Str × Frag)) {k : Arg} {t : TT} {r : List TT}
    (hb : matchExpr R k ≠ .broken) (h : (∀ f, matchExpr R k ≠ .upTo f []) ∨ t ≠ colon) :
    named R (n + 1) acc k (t :: r) = addToken R (named R n acc) k (t :: r) := by
  rw [named.eq_def]
  split
  · rename_i h'; cases h'
  · rename_i h'; cases h'
  · rename_i n' acc' k' rest' h1 h2
    cases h1
    split
    · rename_i h3; exact absurd h3 hb
    · rename_i h3; cases h3
    all_goals first
      | rfl
      | (rename_i h3 h4
         rcases h with h | h
         · exact absurd h3 (h _)
         · cases h4; exact absurd rfl h)

section
variable {A : Type} (go : Arg → List TT → Option A)

theorem add_nil (k : Arg) : addToken R go k [] = none := by cases k <;> simp [addToken]

theorem add_comma (ks : List TT) (r : List TT) : addToken R go (.toks ks) (comma :: r) = none := by
  simp [addToken, comma]

theorem add_more {ks : List TT} (h0 : ks ≠ []) {t : TT} (ht : t ≠ comma) (r : List TT) :
    addToken R go (.toks ks) (t :: r) = go (.toks (ks ++ [t])) r := by
  cases ks with
  | nil => exact absurd rfl h0
  | cons k kr =>
    rw [addToken.eq_def]
    split
    · rename_i h; cases h
    · rename_i h; cases h
    · rename_i ha _; cases ha
    · rename_i _ hb; cases hb; exact absurd rfl ht
    · rename_i ha _; cases ha
    · rename_i ha hb; cases ha; cases hb; rfl

theorem add_colon (r : List TT) : addToken R go (.toks []) (colon :: r) = none := by
  simp [addToken, colon]

theorem add_first {t : TT} (ht : t ≠ comma) (hc : t ≠ colon) (hp : ∀ g, t ≠ .group .paren g) (r : List TT) :
    addToken R go (.toks []) (t :: r) = go (.toks [t]) r := by
  rw [addToken.eq_def]
  split
  · rename_i h; cases h
  · rename_i h; cases h
  · rename_i _ hb; cases hb; exact absurd rfl hc
  · rename_i _ hb; cases hb; exact absurd rfl ht
  · rename_i _ hb; cases hb; exact absurd rfl (hp _)
  · rename_i ha hb; cases ha; cases hb; rfl

theorem add_paren_colon {g : List TT} (h : Whole R g) (r : List TT) :
    addToken R go (.toks []) (.group .paren g :: colon :: r) = go (.frag (.expr g)) (colon :: r) := by
  have hm : matchExpr R (.toks g) = .upTo (.expr g) [] := by
    simp only [matchExpr]
    rw [show R.parse g = .upTo g [] from h]
  simp [addToken, colon, hm]

theorem add_paren_broken {g : List TT} (h : R.parse g = .broken) (r : List TT) :
    addToken R go (.toks []) (.group .paren g :: r) = none := by
  simp [addToken, matchExpr, h]

theorem add_paren_other {g r : List TT} (hb : R.parse g ≠ .broken) (h : Whole R g → r.head? ≠ some colon) :
    addToken R go (.toks []) (.group .paren g :: r) = go (.toks [.group .paren g]) r := by
  simp only [addToken]
  split
  · rename_i hm
    simp only [matchExpr] at hm
    cases hp : R.parse g <;> simp [hp] at hm
    exact absurd hp hb
  · rename_i f r' hm
    simp only [matchExpr] at hm
    cases hp : R.parse g with
    | absent => simp [hp] at hm
    | broken => simp [hp] at hm
    | upTo e x =>
      simp only [hp, Match.upTo.injEq] at hm
      obtain ⟨rfl, rfl⟩ := hm
      obtain ⟨h1, h2⟩ := R.parse_split hp
      simp only [List.append_nil] at h1
      subst h1
      exact absurd rfl (h hp)
  · rfl
end

end Macro
end SV
