import Verif.Proofs.MacroSound
/-
`value!` accepts all of the grammar, within a recursion limit that is linear in the number of tokens.
-/
namespace SV
namespace Macro
variable {R : Rust}

theorem countAll_append (a b : List TT) : countAll (a ++ b) = countAll a + countAll b := by
  induction a with
  | nil => simp [countAll]
  | cons t r ih => simp [countAll, ih]; omega

theorem count_pos (t : TT) : 1 ≤ t.count := by cases t <;> simp [TT.count]; omega

theorem countAll_pos {c : List TT} (h : c ≠ []) : 1 ≤ countAll c := by
  cases c with
  | nil => exact absurd rfl h
  | cons t r => have := count_pos t; simp [countAll]; omega

theorem length_le_countAll (c : List TT) : c.length ≤ countAll c := by
  induction c with
  | nil => simp [countAll]
  | cons t r ih => have := count_pos t; simp [countAll]; omega

/-- An element has a value from some recursion limit on. -/
def From (R : Rust) (N : Nat) (a : Arg) (v : Value Unit) : Prop := ∀ n, N ≤ n → base R n a = some v

theorem evalFrags_snoc {ev : Arg → Option (Value Unit)} {acc : List Frag} {as : List (Value Unit)} {a : Arg} {v : Value Unit}
    (h : evalFrags ev acc = some as) (hv : ev a = some v) : evalFrags ev (acc ++ [.call a]) = some (as ++ [v]) := by
  induction acc generalizing as with
  | nil => simp [evalFrags] at h; subst h; simp [evalFrags, evalFrag, hv]
  | cons f r ih =>
    simp only [evalFrags, Option.bind_eq_bind, Option.bind_eq_some_iff, Option.some.injEq] at h
    obtain ⟨v0, h0, vs, h1, rfl⟩ := h
    simp [evalFrags, h0, ih h1]

theorem evalPairs_snoc {ev : Arg → Option (Value Unit)} {acc : List (Str × Frag)} {as : List (Str × Value Unit)} {k : Str} {a : Arg}
    {v : Value Unit} (h : evalPairs ev acc = some as) (hv : ev a = some v) :
    evalPairs ev (acc ++ [(k, .call a)]) = some (as ++ [(k, v)]) := by
  induction acc generalizing as with
  | nil => simp [evalPairs] at h; subst h; simp [evalPairs, evalFrag, hv]
  | cons f r ih =>
    obtain ⟨k0, f⟩ := f
    simp only [evalPairs, Option.bind_eq_bind, Option.bind_eq_some_iff, Option.some.injEq] at h
    obtain ⟨v0, h0, vs, h1, rfl⟩ := h
    simp [evalPairs, h0, ih h1]

/-- An element of the grammar as the macro takes it. -/
theorem elem_cases {c : List TT} {v : Value Unit} (h0 : c ≠ []) (hb : Begins c → Shape c) (h : Denotes R c v) :
    Shape c ∨ (¬ Begins c ∧ Whole R c ∧ R.value c = some v) := by
  by_cases hs : Shape c
  · exact .inl hs
  · right
    refine ⟨fun h => hs (hb h), ?_⟩
    cases h with
    | nothing => exact absurd rfl h0
    | tuple _ => exact absurd (.tuple _) hs
    | struct _ => exact absurd (.struct _) hs
    | tupleVariant _ => exact absurd (.tupleVariant _ _) hs
    | structVariant _ => exact absurd (.structVariant _ _) hs
    | expr hw _ hv => exact ⟨hw, hv⟩

theorem not_begins_comma {c r : List TT} (h0 : c ≠ []) (h : ¬ Begins c) : ¬ Begins (c ++ comma :: r) := by
  rintro ⟨s, r', hs, he⟩
  apply h
  cases c with
  | nil => exact absurd rfl h0
  | cons t c =>
    cases hs with
    | tuple a => simp at he; rw [he.1]; exact (Shape.tuple a).begins c
    | struct a => simp at he; rw [he.1]; exact (Shape.struct a).begins c
    | tupleVariant n a =>
      cases c with
      | nil => simp [comma] at he
      | cons x c => simp at he; rw [he.1, he.2.1]; exact (Shape.tupleVariant n a).begins c
    | structVariant n a =>
      cases c with
      | nil => simp [comma] at he
      | cons x c => simp at he; rw [he.1, he.2.1]; exact (Shape.structVariant n a).begins c

theorem from_expr {c : List TT} {v : Value Unit} (hv : R.value c = some v) : From R 1 (.frag (.expr c)) v := by
  intro n hn
  cases n with
  | zero => omega
  | succ n => simpa [base, matchExpr] using hv

theorem from_call {N : Nat} {a : Arg} {v : Value Unit} (h : From R N a v) : From R (N + 1) (.frag (.call a)) v := by
  intro n hn
  cases n with
  | zero => omega
  | succ n => simpa [base, matchExpr] using h n (by omega)

/-- The limit that suffices for the value of an element. -/
def lim (c : List TT) : Nat := 3 * countAll c + 1

/-- What is proved of the lists within parentheses. -/
def ItemsOk (R : Rust) (ts : List TT) (vs : List (Value Unit)) : Prop :=
  ∀ (M : Nat) (acc : List Frag) (as : List (Value Unit)), 3 ≤ M → (∀ n, M ≤ n → evalFrags (base R n) acc = some as) →
    ∀ n, 3 * countAll ts + M + 1 ≤ n → unnamed R n acc (.toks ts) [] = some (as ++ vs)

/-- What is proved of the lists within braces. -/
def FieldsOk (R : Rust) (ts : List TT) (fs : List (Str × Value Unit)) : Prop :=
  ∀ (M : Nat) (acc : List (Str × Frag)) (as : List (Str × Value Unit)), 3 ≤ M →
    (∀ n, M ≤ n → evalPairs (base R n) acc = some as) →
    ∀ n, 3 * countAll ts + M + 1 ≤ n → named R n acc (.toks []) ts = some (as ++ fs)

theorem items_nil : ItemsOk R [] [] := by
  intro M acc as hM ha n hn
  cases n with
  | zero => omega
  | succ n =>
    simp only [unnamed]
    rw [ha n (by simp [countAll] at hn; omega)]
    simp

theorem items_last {c : List TT} {v : Value Unit} (h0 : c ≠ []) (hb : Begins c → Shape c) (h : Denotes R c v)
    (ih : From R (lim c) (.toks c) v) : ItemsOk R c [v] := by
  intro M acc as hM ha n hn
  have hc := countAll_pos h0
  obtain ⟨n, rfl⟩ : ∃ n', n = n' + 2 := ⟨n - 2, by omega⟩
  rcases elem_cases h0 hb h with hs | ⟨hnb, hw, hv⟩
  · have := unnamed_begins (R := R) (n + 1) acc hs []
    rw [List.append_nil] at this
    rw [this, unnamed_frag_nil]
    exact evalFrags_snoc (ha n (by omega)) (from_call ih n (by unfold lim; omega))
  · rw [unnamed_plain _ _ h0 hnb, show R.parse c = .upTo c [] from hw]
    exact evalFrags_snoc (ha (n + 1) (by omega)) (from_expr hv (n + 1) (by omega))

theorem items_cons {c r : List TT} {v : Value Unit} {vs : List (Value Unit)} (h0 : c ≠ []) (hb : Begins c → Shape c)
    (h : Denotes R c v) (ih : From R (lim c) (.toks c) v) (ihr : ItemsOk R r vs) :
    ItemsOk R (c ++ comma :: r) (v :: vs) := by
  intro M acc as hM ha n hn
  have hc := countAll_pos h0
  have hcount : countAll (c ++ comma :: r) = countAll c + 1 + countAll r := by
    rw [countAll_append]; simp [countAll, comma, TT.count]; omega
  rw [hcount] at hn
  obtain ⟨n, rfl⟩ : ∃ n', n = n' + 2 := ⟨n - 2, by omega⟩
  -- after the element was added
  have fin : ∀ a, From R (lim c) a v → unnamed R (n + 1) acc (.frag (.call a)) (comma :: r) = some (as ++ v :: vs) := by
    intro a hfa
    rw [unnamed_frag_comma]
    have := ihr (max M (lim c)) (acc ++ [.call a]) (as ++ [v]) (by omega)
      (fun m hm => evalFrags_snoc (ha m (by omega)) (hfa m (by omega))) n (by unfold lim; omega)
    simpa using this
  rcases elem_cases h0 hb h with hs | ⟨hnb, hw, hv⟩
  · rw [unnamed_begins _ _ hs]
    exact fin _ ih
  · rw [unnamed_plain _ _ (by simp) (not_begins_comma h0 hnb), R.parse_stop hw (.inl rfl)]
    exact fin _ (fun m hm => from_expr hv m (by unfold lim at hm; omega))

/-! ### Fields -/

theorem keys_go {ks : List TT} (hw : Whole R ks) (hnb : ∀ p q, ks = p ++ q → R.parse p ≠ .broken) (hc : comma ∉ ks)
    (acc : List (Str × Frag)) (tail : List TT) (n : Nat) :
    ∀ post pre, pre ≠ [] → ks = pre ++ post →
      named R (n + post.length + 1) acc (.toks pre) (post ++ colon :: tail) = named R (n + 1) acc (.toks ks) (colon :: tail) := by
  intro post
  induction post with
  | nil =>
    intro pre h0 he
    simp only [List.append_nil] at he
    subst he
    rfl
  | cons t post ih =>
    intro pre h0 he
    have hb := hnb pre (t :: post) he
    have ht : t ≠ comma := by
      rintro rfl
      exact hc (by rw [he]; simp)
    rw [List.cons_append, named_add]
    · rw [add_more _ h0 ht]
      have := ih (pre ++ [t]) (by simp) (by rw [he]; simp)
      simpa [Nat.add_assoc, Nat.add_comm, Nat.add_left_comm] using this
    · simp only [matchExpr]
      cases hp : R.parse pre <;> simp
      exact hb hp
    · by_cases htc : t = colon
      · left
        intro f hf
        obtain ⟨_, hwp⟩ := match_whole hf
        subst htc
        have := R.parse_stop (rest := post) hwp (.inr rfl)
        rw [← he, show R.parse ks = .upTo ks [] from hw] at this
        simp at this
      · exact .inr htc

/-- What happens up to the colon. -/
theorem key_go {ks : List TT} {k : Str} (hk : Key R ks k) (acc : List (Str × Frag)) (tail : List TT) (n : Nat) :
    ∃ key e, matchExpr R key = .upTo (.expr e) [] ∧ k = nameOf R e ∧
      named R (n + ks.length + 1) acc (.toks []) (ks ++ colon :: tail) = named R (n + 1) acc key (colon :: tail) := by
  cases hk with
  | @paren g hw =>
    refine ⟨.frag (.expr g), g, rfl, rfl, ?_⟩
    simp only [List.length_singleton, List.singleton_append]
    rw [named_add _ _ (by simp [matchExpr, R.parse_nil]) (.inl (by simp [matchExpr, R.parse_nil])), add_paren_colon _ hw]
  | plain hw hnb hc hcol hg =>
    refine ⟨.toks ks, ks, match_of_whole hw, rfl, ?_⟩
    cases ks with
    | nil => exact absurd rfl (whole_ne_nil hw)
    | cons t post =>
      rw [List.cons_append, named_add _ _ (by simp [matchExpr, R.parse_nil]) (.inl (by simp [matchExpr, R.parse_nil]))]
      have ht : t ≠ comma := by rintro rfl; exact hc (by simp)
      have htc : t ≠ colon := by rintro rfl; exact hcol rfl
      have go := keys_go hw hnb hc acc tail n post [t] (by simp) (by simp)
      have e : n + (t :: post).length = n + post.length + 1 := by simp; omega
      rw [e]
      by_cases hp : ∃ g, t = .group .paren g
      · obtain ⟨g, rfl⟩ := hp
        obtain ⟨h1, h2⟩ := hg g post rfl
        rw [add_paren_other _ h1]
        · exact go
        · intro hwg
          obtain ⟨h3, h4⟩ := h2 hwg
          cases post with
          | nil => exact absurd rfl h3
          | cons x y => simpa using h4
      · rw [add_first _ ht htc (fun g h => hp ⟨g, h⟩)]
        exact go

theorem fields_nil : FieldsOk R [] [] := by
  intro M acc as hM ha n hn
  cases n with
  | zero => omega
  | succ n =>
    simp only [named]
    rw [ha n (by simp [countAll] at hn; omega)]
    simp

theorem fields_last {ks : List TT} {k : Str} {c : List TT} {v : Value Unit} (hk : Key R ks k) (h0 : c ≠ [])
    (hb : Begins c → Shape c) (h : Denotes R c v) (ih : From R (lim c) (.toks c) v) :
    FieldsOk R (ks ++ colon :: c) [(k, v)] := by
  intro M acc as hM ha n hn
  have hc := countAll_pos h0
  have hl := length_le_countAll ks
  have hcount : countAll (ks ++ colon :: c) = countAll ks + 1 + countAll c := by
    rw [countAll_append]; simp [countAll, colon, TT.count]; omega
  rw [hcount] at hn
  obtain ⟨n, rfl⟩ : ∃ n', n = (n' + 1) + ks.length + 1 := ⟨n - ks.length - 2, by omega⟩
  obtain ⟨key, e, h1, h2, h3⟩ := key_go hk acc c (n + 1)
  rw [h3]
  subst h2
  rcases elem_cases h0 hb h with hs | ⟨hnb, hw, hv⟩
  · have := colon_begins (R := R) (n + 1) acc h1 hs []
    rw [List.append_nil] at this
    rw [this, namedKey_nil]
    exact evalPairs_snoc (ha n (by omega)) (ih n (by unfold lim; omega))
  · rw [colon_plain _ _ h1 h0 hnb, show R.parse c = .upTo c [] from hw]
    simp only
    rw [namedKey_nil]
    exact evalPairs_snoc (ha n (by omega)) (from_expr hv n (by omega))

theorem fields_cons {ks : List TT} {k : Str} {c r : List TT} {v : Value Unit} {fs : List (Str × Value Unit)} (hk : Key R ks k)
    (h0 : c ≠ []) (hb : Begins c → Shape c) (h : Denotes R c v) (ih : From R (lim c) (.toks c) v) (ihr : FieldsOk R r fs) :
    FieldsOk R (ks ++ colon :: (c ++ comma :: r)) ((k, v) :: fs) := by
  intro M acc as hM ha n hn
  have hc := countAll_pos h0
  have hl := length_le_countAll ks
  have hcount : countAll (ks ++ colon :: (c ++ comma :: r)) = countAll ks + 1 + countAll c + 1 + countAll r := by
    rw [countAll_append]
    simp only [countAll, colon, TT.count]
    rw [countAll_append]
    simp only [countAll, comma, TT.count]
    omega
  rw [hcount] at hn
  obtain ⟨n, rfl⟩ : ∃ n', n = (n' + 1) + ks.length + 1 := ⟨n - ks.length - 2, by omega⟩
  obtain ⟨key, e, h1, h2, h3⟩ := key_go hk acc (c ++ comma :: r) (n + 1)
  rw [h3]
  subst h2
  have fin : ∀ a, From R (lim c) a v →
      namedKey R (n + 1) acc (.expr e) (.call a) (comma :: r) = some (as ++ (nameOf R e, v) :: fs) := by
    intro a hfa
    rw [namedKey_comma]
    have := ihr (max M (lim c)) (acc ++ [(nameOf R e, .call a)]) (as ++ [(nameOf R e, v)]) (by omega)
      (fun m hm => evalPairs_snoc (ha m (by omega)) (hfa m (by omega))) n (by unfold lim; omega)
    simpa using this
  rcases elem_cases h0 hb h with hs | ⟨hnb, hw, hv⟩
  · rw [colon_begins _ _ h1 hs]
    exact fin _ ih
  · rw [colon_plain _ _ h1 (by simp) (not_begins_comma h0 hnb), R.parse_stop hw (.inl rfl)]
    exact fin _ (fun m hm => from_expr hv m (by unfold lim at hm; omega))

/-- Within the limit the macro gives the value that the grammar says. -/
theorem complete {ts : List TT} {v : Value Unit} (h : Denotes R ts v) : From R (lim ts) (.toks ts) v := by
  induction h using Denotes.rec (motive_2 := fun ts vs _ => ItemsOk R ts vs) (motive_3 := fun ts fs _ => FieldsOk R ts fs) with
  | nothing =>
    intro n hn
    cases n with
    | zero => simp [lim] at hn
    | succ n => rfl
  | @tuple ts vs h ih =>
    intro n hn
    simp only [lim, countAll, TT.count] at hn
    obtain ⟨n, rfl⟩ : ∃ n', n = n' + 1 := ⟨n - 1, by omega⟩
    have := ih 3 [] [] (by omega) (fun _ _ => rfl) n (by omega)
    cases ts with
    | nil =>
      obtain ⟨n, rfl⟩ : ∃ n', n = n' + 1 := ⟨n - 1, by omega⟩
      simp only [unnamed, evalFrags, List.nil_append, Option.some.injEq] at this
      subst this
      rfl
    | cons t r => simp [base, this, Value.unnamedComposite, Composite.mkUnnamed]
  | @struct ts fs h ih =>
    intro n hn
    simp only [lim, countAll, TT.count] at hn
    obtain ⟨n, rfl⟩ : ∃ n', n = n' + 1 := ⟨n - 1, by omega⟩
    have := ih 3 [] [] (by omega) (fun _ _ => rfl) n (by omega)
    cases ts with
    | nil =>
      obtain ⟨n, rfl⟩ : ∃ n', n = n' + 1 := ⟨n - 1, by omega⟩
      simp only [named, evalPairs, List.nil_append, Option.some.injEq] at this
      subst this
      rfl
    | cons t r => simp [base, this, Value.namedComposite, Composite.mkNamed]
  | @tupleVariant nm ts vs h ih =>
    intro n hn
    simp only [lim, countAll, TT.count] at hn
    obtain ⟨n, rfl⟩ : ∃ n', n = n' + 1 := ⟨n - 1, by omega⟩
    have := ih 3 [] [] (by omega) (fun _ _ => rfl) n (by omega)
    simp [base, this, Value.unnamedVariant, Variant.unnamedFields, Composite.mkUnnamed]
  | @structVariant nm ts fs h ih =>
    intro n hn
    simp only [lim, countAll, TT.count] at hn
    obtain ⟨n, rfl⟩ : ∃ n', n = n' + 1 := ⟨n - 1, by omega⟩
    have := ih 3 [] [] (by omega) (fun _ _ => rfl) n (by omega)
    simp [base, this, Value.namedVariant, Variant.namedFields, Composite.mkNamed]
  | @expr ts v hw hs hv =>
    intro n hn
    obtain ⟨n, rfl⟩ : ∃ n', n = n' + 1 := ⟨n - 1, by simp [lim] at hn; omega⟩
    rw [base_plain _ (whole_ne_nil hw) hs, show R.parse ts = .upTo ts [] from hw]
    exact hv
  | nil => exact items_nil
  | last h0 hb h ih => exact items_last h0 hb h ih
  | cons h0 hb h hr ih ihr => exact items_cons h0 hb h ih ihr
  | empty => exact fields_nil
  | lastField hk h0 hb h ih => exact fields_last hk h0 hb h ih
  | field hk h0 hb h hr ih ihr => exact fields_cons hk h0 hb h ih ihr

end Macro
end SV
