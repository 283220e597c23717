import Verif.Proofs.Macro
/-
What `value!` accepts is in the grammar.
-/
namespace SV
namespace Macro
variable {R : Rust}

theorem evalFrags_append {ev : Arg → Option (Value Unit)} {acc : List Frag} {a : Arg} {res : List (Value Unit)}
    (h : evalFrags ev (acc ++ [.call a]) = some res) :
    ∃ vs v, evalFrags ev acc = some vs ∧ ev a = some v ∧ res = vs ++ [v] := by
  induction acc generalizing res with
  | nil =>
    cases hv : ev a with
    | none => simp [evalFrags, evalFrag, hv] at h
    | some v =>
      simp [evalFrags, evalFrag, hv] at h
      exact ⟨[], v, rfl, rfl, by simp [h]⟩
  | cons f r ih =>
    simp only [List.cons_append, evalFrags, Option.bind_eq_bind, Option.bind_eq_some_iff] at h
    obtain ⟨v0, h0, vs0, h1, h2⟩ := h
    obtain ⟨vs, v, h3, h4, h5⟩ := ih h1
    refine ⟨v0 :: vs, v, by simp [evalFrags, h0, h3], h4, ?_⟩
    simp only [Option.some.injEq] at h2
    rw [← h2, h5]; rfl

theorem evalPairs_append {ev : Arg → Option (Value Unit)} {acc : List (Str × Frag)} {k : Str} {a : Arg}
    {res : List (Str × Value Unit)} (h : evalPairs ev (acc ++ [(k, .call a)]) = some res) :
    ∃ vs v, evalPairs ev acc = some vs ∧ ev a = some v ∧ res = vs ++ [(k, v)] := by
  induction acc generalizing res with
  | nil =>
    cases hv : ev a with
    | none => simp [evalPairs, evalFrag, hv] at h
    | some v =>
      simp [evalPairs, evalFrag, hv] at h
      exact ⟨[], v, rfl, rfl, by simp [h]⟩
  | cons f r ih =>
    obtain ⟨k0, f⟩ := f
    simp only [List.cons_append, evalPairs, Option.bind_eq_bind, Option.bind_eq_some_iff] at h
    obtain ⟨v0, h0, vs0, h1, h2⟩ := h
    obtain ⟨vs, v, h3, h4, h5⟩ := ih h1
    refine ⟨(k0, v0) :: vs, v, by simp [evalPairs, h0, h3], h4, ?_⟩
    simp only [Option.some.injEq] at h2
    rw [← h2, h5]; rfl

theorem whole_of_parse {ts e : List TT} (h : R.parse ts = .upTo e []) : e = ts ∧ Whole R ts := by
  obtain ⟨h1, h2⟩ := R.parse_split h
  simp only [List.append_nil] at h1
  subst h1
  exact ⟨rfl, h2⟩

theorem whole_ne_nil {ts : List TT} (h : Whole R ts) : ts ≠ [] := by
  intro h0
  subst h0
  simp [Whole, R.parse_nil] at h

theorem match_whole {ts : List TT} {f : Frag} (h : matchExpr R (.toks ts) = .upTo f []) : f = .expr ts ∧ Whole R ts := by
  simp only [matchExpr] at h
  cases hp : R.parse ts with
  | absent => simp [hp] at h
  | broken => simp [hp] at h
  | upTo e r =>
    simp only [hp, Match.upTo.injEq] at h
    obtain ⟨h1, h2⟩ := h
    subst h2
    obtain ⟨h3, h4⟩ := whole_of_parse hp
    subst h3
    exact ⟨h1.symm, h4⟩

theorem match_of_whole {ts : List TT} (h : Whole R ts) : matchExpr R (.toks ts) = .upTo (.expr ts) [] := by
  simp only [matchExpr]
  rw [show R.parse ts = .upTo ts [] from h]

/-- One element of a list. -/
def Elem (R : Rust) (c : List TT) (v : Value Unit) : Prop := c ≠ [] ∧ (Begins c → Shape c) ∧ Denotes R c v

/-- What the macro makes of an element. -/
inductive ElemArg (R : Rust) : Arg → List TT → Prop
  | shape {c} : Shape c → ElemArg R (.toks c) c
  | expr {e} : Whole R e → ¬ Begins e → ElemArg R (.frag (.expr e)) e

theorem ElemArg.elem {a : Arg} {c : List TT} (h : ElemArg R a c) {m : Nat} {v : Value Unit} (hv : base R m a = some v)
    (ih : ∀ ts v, base R m (.toks ts) = some v → Denotes R ts v) : Elem R c v := by
  cases h with
  | shape h => exact ⟨h.ne_nil, fun _ => h, ih _ _ hv⟩
  | expr hw hb =>
    refine ⟨whole_ne_nil hw, fun h => absurd h hb, ?_⟩
    cases m with
    | zero => simp [base] at hv
    | succ m =>
      simp only [base, matchExpr] at hv
      exact .expr hw (fun h => hb (by have := h.begins []; simpa using this)) hv

/-- What may follow a field's name and colon. -/
def After (R : Rust) (k : Str) (ts : List TT) (fs : List (Str × Value Unit)) : Prop :=
  (∃ v, Elem R ts v ∧ fs = [(k, v)]) ∨
  ∃ c v r fs', ts = c ++ comma :: r ∧ Elem R c v ∧ Fields R r fs' ∧ fs = (k, v) :: fs'

/-- The statement of soundness for a recursion limit. -/
structure Sound (R : Rust) (n : Nat) : Prop where
  base : ∀ ts v, base R n (.toks ts) = some v → Denotes R ts v
  items : ∀ acc ts res, unnamed R n acc (.toks ts) [] = some res →
    ∃ m, m < n ∧ ∃ as vs, evalFrags (Macro.base R m) acc = some as ∧ res = as ++ vs ∧ Items R ts vs
  item : ∀ acc a c rest res, ElemArg R a c → unnamed R n acc (.frag (.call a)) rest = some res →
    ∃ m, m < n ∧ ∃ as, evalFrags (Macro.base R m) acc = some as ∧ ∃ m', m' < n ∧ ∃ v, Macro.base R m' a = some v ∧
      ((rest = [] ∧ res = as ++ [v]) ∨ ∃ r vs, rest = comma :: r ∧ Items R r vs ∧ res = as ++ v :: vs)
  fields : ∀ acc ts res, named R n acc (.toks []) ts = some res →
    ∃ m, m < n ∧ ∃ as fs, evalPairs (Macro.base R m) acc = some as ∧ res = as ++ fs ∧ Fields R ts fs
  key : ∀ acc pre rest res, pre ≠ [] → named R n acc (.toks pre) rest = some res →
    ∃ m, m < n ∧ ∃ as fs, evalPairs (Macro.base R m) acc = some as ∧ res = as ++ fs ∧
      ∃ post tail, rest = post ++ colon :: tail ∧ Whole R (pre ++ post) ∧
        (∀ p q, post = p ++ q → R.parse (pre ++ p) ≠ .broken) ∧ comma ∉ post ∧ After R (nameOf R (pre ++ post)) tail fs

theorem named_nil_none (n : Nat) (acc : List (Str × Frag)) {k : Arg} (h : k ≠ .toks []) : named R n acc k [] = none := by
  cases n with
  | zero => rfl
  | succ n =>
    rw [named.eq_def]
    split
    · rfl
    · rename_i h' ; cases h'; exact absurd rfl h
    · split
      all_goals first
        | rfl
        | (rename_i h3; cases h3; done)
        | exact add_nil _ _

/-- A key that goes on after a complete expression and a colon never becomes one. -/
theorem dead {n : Nat} {acc : List (Str × Frag)} {ks more rest : List TT} (hw : Whole R ks) :
    named R n acc (.toks (ks ++ colon :: more)) rest = none := by
  induction n generalizing more rest with
  | zero => rfl
  | succ n ih =>
    cases rest with
    | nil => exact named_nil_none _ _ (by simp)
    | cons t r =>
      have hp : R.parse (ks ++ colon :: more) = .upTo ks (colon :: more) := R.parse_stop hw (.inr rfl)
      rw [named_add _ _ (by simp [matchExpr, hp]) (.inl (by simp [matchExpr, hp]))]
      by_cases ht : t = comma
      · subst ht
        exact add_comma _ _ _
      · rw [add_more _ (by simp) ht]
        have := ih (more := more ++ [t]) (rest := r)
        simpa using this

theorem after_colon {n : Nat} (hs : ∀ m, m ≤ n → Sound R m) {acc : List (Str × Frag)} {k : Arg} {ks ts : List TT}
    {res : List (Str × Value Unit)} (hk : matchExpr R k = .upTo (.expr ks) [])
    (h : named R (n + 1) acc k (colon :: ts) = some res) :
    (∃ m, m < n + 1 ∧ ∃ as fs, evalPairs (base R m) acc = some as ∧ res = as ++ fs ∧ After R (nameOf R ks) ts fs) ∨
      addToken R (named R n acc) k (colon :: ts) = some res := by
  -- what happens once the value is found
  have fin : ∀ {a : Arg} {c rest : List TT}, ElemArg R a c → ts = c ++ rest →
      namedKey R n acc (.expr ks) (.call a) rest = some res →
      ∃ m, m < n + 1 ∧ ∃ as fs, evalPairs (base R m) acc = some as ∧ res = as ++ fs ∧ After R (nameOf R ks) ts fs := by
    intro a c rest ha hts hn
    cases n with
    | zero => simp [namedKey] at hn
    | succ n =>
      cases rest with
      | nil =>
        rw [namedKey_nil] at hn
        obtain ⟨as, v, h1, h2, h3⟩ := evalPairs_append hn
        refine ⟨n, by omega, as, [(_, v)], h1, h3, .inl ⟨v, ?_, rfl⟩⟩
        rw [hts, List.append_nil]
        exact ha.elem h2 (hs n (by omega)).base
      | cons t r =>
        by_cases ht : t = comma
        · subst ht
          rw [namedKey_comma] at hn
          obtain ⟨m, hm, as, fs, h1, h2, h3⟩ := (hs n (by omega)).fields _ _ _ hn
          obtain ⟨as', v, h4, h5, h6⟩ := evalPairs_append h1
          refine ⟨m, by omega, as', (_, v) :: fs, h4, by rw [h2, h6]; simp, .inr ⟨c, v, r, fs, hts, ?_, h3, rfl⟩⟩
          exact ha.elem h5 (hs m (by omega)).base
        · rw [namedKey_other _ _ _ _ _ _ ht] at hn
          cases hn
  by_cases h0 : ts = []
  · subst h0
    rw [colon_nil _ _ hk] at h
    cases h
  · by_cases hb : Begins ts
    · obtain ⟨s, r, hs', rfl⟩ := hb
      rw [colon_begins _ _ hk hs'] at h
      exact .inl (fin (.shape hs') rfl h)
    · rw [colon_plain _ _ hk h0 hb] at h
      split at h
      · cases h
      · rename_i e hp
        obtain ⟨he, hw⟩ := whole_of_parse hp
        subst he
        exact .inl (fin (.expr hw hb) (by simp) h)
      · rename_i e r hp
        obtain ⟨he, hw⟩ := R.parse_split hp
        refine .inl (fin (.expr hw ?_) he h)
        rintro ⟨s, r', hs', rfl⟩
        refine hb ⟨s, r' ++ comma :: r, hs', ?_⟩
        rw [he]; simp [comma]
      · exact .inr h

theorem sound_step {n : Nat} (hs : ∀ m, m ≤ n → Sound R m) : Sound R (n + 1) where
  base := by
    intro ts v h
    by_cases h0 : ts = []
    · subst h0
      simp only [base, Option.some.injEq] at h
      subst h
      exact .nothing
    by_cases hsh : Shape ts
    · cases hsh with
      | tuple a =>
        cases a with
        | nil =>
          simp only [base, Option.some.injEq] at h
          subst h
          exact .tuple .nil
        | cons t r =>
          simp only [base, Option.bind_eq_bind, Option.bind_eq_some_iff, Option.some.injEq] at h
          obtain ⟨vs, h1, rfl⟩ := h
          obtain ⟨m, hm, as, vs', h2, rfl, h4⟩ := (hs n (by omega)).items _ _ _ h1
          simp only [evalFrags, Option.some.injEq] at h2
          subst h2
          exact .tuple h4
      | struct a =>
        cases a with
        | nil =>
          simp only [base, Option.some.injEq] at h
          subst h
          exact .struct .empty
        | cons t r =>
          simp only [base, Option.bind_eq_bind, Option.bind_eq_some_iff, Option.some.injEq] at h
          obtain ⟨vs, h1, rfl⟩ := h
          obtain ⟨m, hm, as, vs', h2, rfl, h4⟩ := (hs n (by omega)).fields _ _ _ h1
          simp only [evalPairs, Option.some.injEq] at h2
          subst h2
          have := Denotes.struct h4
          simpa [Value.namedComposite, Composite.mkNamed] using this
      | tupleVariant nm a =>
        simp only [base, Option.bind_eq_bind, Option.bind_eq_some_iff, Option.some.injEq] at h
        obtain ⟨vs, h1, rfl⟩ := h
        obtain ⟨m, hm, as, vs', h2, rfl, h4⟩ := (hs n (by omega)).items _ _ _ h1
        simp only [evalFrags, Option.some.injEq] at h2
        subst h2
        exact .tupleVariant h4
      | structVariant nm a =>
        simp only [base, Option.bind_eq_bind, Option.bind_eq_some_iff, Option.some.injEq] at h
        obtain ⟨vs, h1, rfl⟩ := h
        obtain ⟨m, hm, as, vs', h2, rfl, h4⟩ := (hs n (by omega)).fields _ _ _ h1
        simp only [evalPairs, Option.some.injEq] at h2
        subst h2
        have := Denotes.structVariant (n := nm) h4
        simpa [Value.namedVariant, Variant.namedFields, Composite.mkNamed] using this
    · rw [base_plain _ h0 hsh] at h
      split at h
      · rename_i e hp
        obtain ⟨he, hw⟩ := whole_of_parse hp
        subst he
        exact .expr hw hsh h
      · cases h
  items := by
    intro acc ts res h
    by_cases h0 : ts = []
    · subst h0
      simp only [unnamed] at h
      exact ⟨n, by omega, res, [], h, by simp, .nil⟩
    -- one element and what follows it
    have fin : ∀ {a : Arg} {c rest : List TT}, ElemArg R a c → ts = c ++ rest →
        unnamed R n acc (.frag (.call a)) rest = some res →
        ∃ m, m < n + 1 ∧ ∃ as vs, evalFrags (Macro.base R m) acc = some as ∧ res = as ++ vs ∧ Items R ts vs := by
      intro a c rest ha hts hn
      obtain ⟨m, hm, as, h1, m', hm', v, h2, h3⟩ := (hs n (by omega)).item _ _ _ _ _ ha hn
      have he := ha.elem h2 (hs m' (by omega)).base
      rcases h3 with ⟨rfl, rfl⟩ | ⟨r, vs, rfl, h4, rfl⟩
      · refine ⟨m, by omega, as, [v], h1, rfl, ?_⟩
        rw [hts, List.append_nil]
        exact .last he.1 he.2.1 he.2.2
      · refine ⟨m, by omega, as, v :: vs, h1, rfl, ?_⟩
        rw [hts]
        exact .cons he.1 he.2.1 he.2.2 h4
    by_cases hb : Begins ts
    · obtain ⟨s, r, hs', rfl⟩ := hb
      rw [unnamed_begins _ _ hs'] at h
      exact fin (.shape hs') rfl h
    · rw [unnamed_plain _ _ h0 hb] at h
      split at h
      · rename_i e hp
        obtain ⟨he, hw⟩ := whole_of_parse hp
        subst he
        obtain ⟨as, v, h1, h2, h3⟩ := evalFrags_append h
        have he := (ElemArg.expr hw hb).elem h2 (hs n (by omega)).base
        exact ⟨n, by omega, as, [v], h1, h3, .last he.1 he.2.1 he.2.2⟩
      · rename_i e r hp
        obtain ⟨he, hw⟩ := R.parse_split hp
        refine fin (.expr hw ?_) he h
        rintro ⟨s, r', hs', rfl⟩
        refine hb ⟨s, r' ++ comma :: r, hs', ?_⟩
        rw [he]; simp [comma]
      · cases h
  item := by
    intro acc a c rest res ha h
    cases rest with
    | nil =>
      rw [unnamed_frag_nil] at h
      obtain ⟨as, v, h1, h2, h3⟩ := evalFrags_append h
      cases n with
      | zero => simp [base] at h2
      | succ n =>
        simp only [base, matchExpr] at h2
        exact ⟨n + 1, by omega, as, h1, n, by omega, v, h2, .inl ⟨rfl, h3⟩⟩
    | cons t r =>
      by_cases ht : t = comma
      · subst ht
        rw [unnamed_frag_comma] at h
        obtain ⟨m, hm, as, vs, h1, h2, h3⟩ := (hs n (by omega)).items _ _ _ h
        obtain ⟨as', v, h4, h5, h6⟩ := evalFrags_append h1
        exact ⟨m, by omega, as', h4, m, by omega, v, h5, .inr ⟨r, vs, rfl, h3, by rw [h2, h6]; simp⟩⟩
      · rw [unnamed_frag_other _ _ _ _ _ ht] at h
        cases h
  key := by
    intro acc pre rest res h0 h
    -- a token is added
    have step : ∀ t r, rest = t :: r → R.parse pre ≠ .broken → addToken R (named R n acc) (.toks pre) (t :: r) = some res →
        ∃ m, m < n + 1 ∧ ∃ as fs, evalPairs (Macro.base R m) acc = some as ∧ res = as ++ fs ∧
          ∃ post tail, rest = post ++ colon :: tail ∧ Whole R (pre ++ post) ∧
            (∀ p q, post = p ++ q → R.parse (pre ++ p) ≠ .broken) ∧ comma ∉ post ∧
            After R (nameOf R (pre ++ post)) tail fs := by
      intro t r hr hnb ha
      by_cases ht : t = comma
      · subst ht
        rw [add_comma] at ha
        cases ha
      rw [add_more _ h0 ht] at ha
      obtain ⟨m, hm, as, fs, e1, e2, post, tail, e3, e4, e5, e6, e7⟩ :=
        (hs n (by omega)).key _ _ _ _ (by simp) ha
      refine ⟨m, by omega, as, fs, e1, e2, t :: post, tail, by rw [hr, e3]; rfl, by simpa using e4, ?_, ?_, by simpa using e7⟩
      · intro p q hpq
        cases p with
        | nil => simpa using hnb
        | cons p0 p =>
          simp only [List.cons_append, List.cons.injEq] at hpq
          obtain ⟨rfl, hpq⟩ := hpq
          simpa using e5 p q hpq
      · intro hm
        rcases List.mem_cons.mp hm with hm | hm
        · exact ht hm.symm
        · exact e6 hm
    cases rest with
    | nil => rw [named_nil_none _ _ (by simpa using h0)] at h; cases h
    | cons t r =>
      cases hp : R.parse pre with
      | broken => rw [named_broken _ _ _ (by simp [matchExpr, hp])] at h; cases h
      | absent =>
        rw [named_add _ _ (by simp [matchExpr, hp]) (.inl (by simp [matchExpr, hp]))] at h
        exact step t r rfl (by simp [hp]) h
      | upTo e rr =>
        cases rr with
        | cons x y =>
          rw [named_add _ _ (by simp [matchExpr, hp]) (.inl (by simp [matchExpr, hp]))] at h
          exact step t r rfl (by simp [hp]) h
        | nil =>
          obtain ⟨he, hw⟩ := whole_of_parse hp
          subst he
          by_cases ht : t = colon
          · subst ht
            rcases after_colon hs (match_of_whole hw) h with ⟨m, hm, as, fs, h1, h2, h3⟩ | h
            · refine ⟨m, hm, as, fs, h1, h2, [], r, rfl, by simpa using hw, ?_, by simp, by simpa using h3⟩
              intro p q hpq
              have : p = [] := by
                rcases p with _ | ⟨x, y⟩
                · rfl
                · simp at hpq
              subst this
              simp [hp]
            · exfalso
              rw [add_more _ h0 (by simp [colon, comma])] at h
              have := dead (n := n) (acc := acc) (more := []) (rest := r) hw
              rw [this] at h
              cases h
          · rw [named_add _ _ (by simp [matchExpr, hp]) (.inr ht)] at h
            exact step t r rfl (by simp [hp]) h
  fields := by
    intro acc ts res h
    cases ts with
    | nil =>
      simp only [named] at h
      exact ⟨n, by omega, res, [], h, by simp, .empty⟩
    | cons t r =>
      rw [named_add _ _ (by simp [matchExpr, R.parse_nil]) (.inl (by simp [matchExpr, R.parse_nil]))] at h
      -- a key that begins with this token
      have plain : t ≠ comma → t ≠ colon →
          (∀ g, t = .group .paren g → R.parse g ≠ .broken ∧ (Whole R g → r.head? ≠ some colon)) →
          named R n acc (.toks [t]) r = some res →
          ∃ m, m < n + 1 ∧ ∃ as fs, evalPairs (Macro.base R m) acc = some as ∧ res = as ++ fs ∧ Fields R (t :: r) fs := by
        intro hc hcol hg hn
        obtain ⟨m, hm, as, fs, e1, e2, post, tail, e3, e4, e5, e6, e7⟩ := (hs n (by omega)).key _ _ _ _ (by simp) hn
        refine ⟨m, by omega, as, fs, e1, e2, ?_⟩
        have hkey : Key R (t :: post) (nameOf R (t :: post)) := by
          refine .plain (by simpa using e4) ?_ ?_ (by simpa using hcol) ?_
          · intro p q hpq
            cases p with
            | nil => simp [R.parse_nil]
            | cons p0 p =>
              simp only [List.cons_append, List.cons.injEq] at hpq
              obtain ⟨rfl, hpq⟩ := hpq
              simpa using e5 p q hpq
          · intro hmem
            rcases List.mem_cons.mp hmem with hmem | hmem
            · exact hc hmem.symm
            · exact e6 hmem
          · intro g r' hgr
            simp only [List.cons.injEq] at hgr
            obtain ⟨rfl, rfl⟩ := hgr
            refine ⟨(hg g rfl).1, fun hw => ⟨?_, ?_⟩⟩
            · rintro rfl
              exact (hg g rfl).2 hw (by simp [e3])
            · intro hh
              refine (hg g rfl).2 hw ?_
              rw [e3]
              cases post with
              | nil => simp at hh
              | cons x y => simpa using hh
        rcases e7 with ⟨v, he, hf⟩ | ⟨c, v, r', fs', hc', he, hf', hf⟩
        · have := Fields.lastField hkey he.1 he.2.1 he.2.2
          rw [e3, hf]
          simpa using this
        · have := Fields.field hkey he.1 he.2.1 he.2.2 hf'
          rw [e3, hf, hc']
          simpa using this
      by_cases ht : t = comma
      · subst ht
        rw [add_comma] at h
        cases h
      by_cases hc : t = colon
      · subst hc
        rw [add_colon] at h
        cases h
      by_cases hg : ∃ g, t = .group .paren g
      · obtain ⟨g, rfl⟩ := hg
        by_cases hb : R.parse g = .broken
        · rw [add_paren_broken _ hb] at h
          cases h
        by_cases hw : Whole R g ∧ r.head? = some colon
        · obtain ⟨hw, hh⟩ := hw
          cases r with
          | nil => simp at hh
          | cons x r =>
            simp only [List.head?_cons, Option.some.injEq] at hh
            subst hh
            rw [add_paren_colon _ hw] at h
            cases n with
            | zero => simp [named] at h
            | succ n =>
              rcases after_colon (n := n) (fun m hm => hs m (by omega)) (k := .frag (.expr g)) rfl h with
                ⟨m, hm, as, fs, h1, h2, h3⟩ | h
              · refine ⟨m, by omega, as, fs, h1, h2, ?_⟩
                rcases h3 with ⟨v, he, hf⟩ | ⟨c, v, r'', fs', hc', he, hf', hf⟩
                · have := Fields.lastField (.paren hw) he.1 he.2.1 he.2.2
                  rw [hf]
                  simpa using this
                · have := Fields.field (.paren hw) he.1 he.2.1 he.2.2 hf'
                  rw [hf, hc']
                  simpa using this
              · simp [addToken] at h
        · have hw' : Whole R g → r.head? ≠ some colon := fun h1 h2 => hw ⟨h1, h2⟩
          rw [add_paren_other _ hb hw'] at h
          refine plain ht hc ?_ h
          intro g' hg'
          cases hg'
          exact ⟨hb, hw'⟩
      · have hg' : ∀ g, t ≠ .group .paren g := fun g h => hg ⟨g, h⟩
        rw [add_first _ ht hc hg'] at h
        exact plain ht hc (fun g h => absurd h (hg' g)) h

theorem sound (n : Nat) : Sound R n := by
  induction n using Nat.strongRecOn with
  | ind n ih =>
    cases n with
    | zero =>
      exact ⟨fun _ _ h => by simp [base] at h, fun _ _ _ h => by simp [unnamed] at h,
        fun _ _ _ _ _ _ h => by simp [unnamed] at h, fun _ _ _ h => by simp [named] at h,
        fun _ _ _ _ _ h => by simp [named] at h⟩
    | succ n => exact sound_step (fun m hm => ih m (by omega))

end Macro
end SV
