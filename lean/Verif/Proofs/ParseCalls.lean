import Verif.Model.ParseCalls
import Verif.Proofs.ParseInv
import Verif.Proofs.Size
/-
Lemmas on the texts that the parser asks for values in.
-/
namespace SV

variable {u : Uni}

/-! ### Each text is asked for once -/

/-- Shorter and shorter suffixes of `s`, with lengths from `k` and below `n`. -/
def Trail (s : Str) (n k : Nat) (l : List Str) : Prop :=
  l.Pairwise (fun a b => b.length < a.length) ∧ ∀ a ∈ l, a <:+ s ∧ k ≤ a.length ∧ a.length < n

theorem Trail.nil {s : Str} {n k : Nat} : Trail s n k [] := ⟨.nil, by simp⟩

theorem Trail.mono {s s' : Str} {n n' k k' : Nat} {l : List Str} (h : Trail s n k l) (hs : s <:+ s') (hn : n ≤ n') (hk : k' ≤ k) :
    Trail s' n' k' l :=
  ⟨h.1, fun a ha => by obtain ⟨h1, h2, h3⟩ := h.2 a ha; exact ⟨h1.trans hs, by omega, by omega⟩⟩

theorem Trail.append {s : Str} {n n' k k' : Nat} {l l' : List Str} (h : Trail s n k l) (h' : Trail s n' k' l') (h1 : n' ≤ k) (h2 : k' ≤ k) (h3 : n' ≤ n) :
    Trail s n k' (l ++ l') := by
  refine ⟨List.pairwise_append.2 ⟨h.1, h'.1, ?_⟩, ?_⟩
  · intro a ha b hb
    have := (h.2 a ha).2; have := (h'.2 b hb).2
    omega
  · intro a ha
    rcases List.mem_append.1 ha with ha | ha
    · obtain ⟨x, y, z⟩ := h.2 a ha; exact ⟨x, by omega, z⟩
    · obtain ⟨x, y, z⟩ := h'.2 a ha; exact ⟨x, y, by omega⟩

/-- How much is left after a success. -/
def leftOf {α ε : Type} : Option (Except ε α × Toks) → Nat
  | some (.ok _, t) => t.rest.length
  | _ => 0

theorem Adv.suffix {a b : Toks} (h : Adv a b) : b.rest <:+ a.rest := by
  obtain ⟨p, h, _⟩ := h; exact ⟨p, h.symm⟩

/-- What is shown of a parser of items and its record. -/
def Walks {α ε : Type} (item : Toks → Option (Except ε α × Toks)) (asks : Toks → List Str) (t : Toks) : Prop :=
  Trail t.rest (t.rest.length + 1) (leftOf (item t)) (asks t) ∧ ∀ v t', item t = some (.ok v, t') → Adv t t'

theorem walks_sepRest {α : Type} {item : Toks → Option (Except ParseError α × Toks)} {asks : Toks → List Str} (hi : ∀ t, Walks item asks t) (c : Char) :
    ∀ (fuel : Nat) (acc : List α) (t : Toks),
      Trail t.rest t.rest.length (leftOf (sepRest item (skipSpacedSep u c) fuel acc t)) (asksSepRest item asks (skipSpacedSep u c) fuel t) ∧
      leftOf (sepRest item (skipSpacedSep u c) fuel acc t) ≤ t.rest.length ∧
      ∀ v t', sepRest item (skipSpacedSep u c) fuel acc t = some (.ok v, t') → Adv t t' := by
  intro fuel
  induction fuel with
  | zero => intro acc t; exact ⟨.nil, by simp [sepRest, leftOf], by simp [sepRest]⟩
  | succ fuel ih =>
    intro acc t
    unfold sepRest asksSepRest
    have hs := sep_adv (u := u) c t
    cases hsep : skipSpacedSep u c t with
    | mk b t1 =>
      rw [hsep] at hs
      cases b with
      | false => exact ⟨.nil, by simp [leftOf], by rintro v t' h; cases h; exact .refl t⟩
      | true =>
        have hl := sep_lt hsep
        obtain ⟨h1, h2⟩ := hi t1
        simp only
        cases hit : item t1 with
        | none =>
          rw [hit] at h1
          refine ⟨?_, by simp [leftOf], by simp⟩
          simp only [List.append_nil]
          exact h1.mono hs.suffix hl (by simp [leftOf])
        | some p =>
          obtain ⟨x, t2⟩ := p
          cases x with
          | error e =>
            rw [hit] at h1
            refine ⟨?_, by simp [leftOf], by simp⟩
            simp only [List.append_nil]
            exact h1.mono hs.suffix hl (by simp [leftOf])
          | ok a =>
            rw [hit] at h1
            have ha := h2 _ _ hit
            obtain ⟨h3, h4, h5⟩ := ih (acc ++ [a]) t2
            have hle := ha.le
            simp only
            refine ⟨?_, by omega, fun v t' h => hs.trans (ha.trans (h5 v t' h))⟩
            exact (h1.mono hs.suffix hl (Nat.le_refl _)).append (h3.mono (ha.suffix.trans hs.suffix) (Nat.le_refl _) (Nat.le_refl _))
              (by simp [leftOf]) (by simpa [leftOf] using h4) (by omega)

theorem walks_sep {α : Type} {item : Toks → Option (Except ParseError α × Toks)} {asks : Toks → List Str} (hi : ∀ t, Walks item asks t) (c : Char) (t : Toks) :
    Walks (sepByErr item (skipSpacedSep u c)) (asksSep item asks (skipSpacedSep u c)) t := by
  unfold Walks sepByErr asksSep
  obtain ⟨h1, h2⟩ := hi t
  cases hit : item t with
  | none =>
    rw [hit] at h1
    refine ⟨?_, by simp⟩
    simp only [List.append_nil]
    exact h1
  | some p =>
    obtain ⟨x, t2⟩ := p
    cases x with
    | error e =>
      rw [hit] at h1
      refine ⟨?_, by simp⟩
      simp only [List.append_nil]
      exact h1
    | ok a =>
      rw [hit] at h1
      have ha := h2 _ _ hit
      obtain ⟨h3, h4, h5⟩ := walks_sepRest (u := u) hi c (t2.rest.length + 1) [a] t2
      have hle := ha.le
      simp only
      refine ⟨?_, fun v t' h => ha.trans (h5 v t' h)⟩
      exact h1.append (h3.mono ha.suffix (Nat.le_refl _) (Nat.le_refl _)) (by simp [leftOf]) (by simpa [leftOf] using h4) (by omega)

theorem walks_field {pv : Toks → VRes} {asks : Toks → List Str} (hi : ∀ t, Walks pv asks t) (t : Toks) :
    Walks (parseField u pv) (asksField u asks) t := by
  unfold Walks parseField asksField
  have h := (parseFieldName_inv (u := u) t).1
  cases hf : parseFieldName u t with
  | mk x t1 =>
    rw [hf] at h
    cases x with
    | error e => exact ⟨.nil, by simp⟩
    | ok name =>
      have hs := sep_adv (u := u) ':' t1
      cases hsep : skipSpacedSep u ':' t1 with
      | mk b t2 =>
        rw [hsep] at hs
        have h12 := h.trans hs
        simp only [hsep]
        cases b with
        | false => exact ⟨.nil, by simp⟩
        | true =>
          obtain ⟨h1, h2⟩ := hi t2
          have hle : t2.rest.length ≤ t.rest.length := h12.le
          simp only
          cases hp : pv t2 with
          | none => rw [hp] at h1; exact ⟨h1.mono h12.suffix (by omega) (by simp [leftOf]), by simp⟩
          | some p =>
            rw [hp] at h1
            obtain ⟨x, t3⟩ := p
            cases x with
            | error e => exact ⟨h1.mono h12.suffix (by omega) (by simp [leftOf]), by simp⟩
            | ok v =>
              refine ⟨h1.mono h12.suffix (by omega) (by simp [leftOf]), ?_⟩
              intro v' t' h'
              cases h'
              exact h12.trans (h2 _ _ hp)

/-- What is shown of an alternative of `one_of!` and its record. -/
def WalksO {α : Type} (s : Str) (r : RRes α) (a : List Str) : Prop :=
  Trail s s.length (leftOf r) a ∧ ∀ t', r = some (.error none, t') → a = []

theorem walks_named {pv : Toks → VRes} {asks : Toks → List Str} (hi : ∀ t, Walks pv asks t) (t : Toks) :
    WalksO t.rest (parseNamedComposite u pv t) (asksNamed u pv asks t) := by
  unfold WalksO parseNamedComposite asksNamed
  have h1 := token_adv '{' t
  cases ht1 : t.token '{' with
  | mk b t1 =>
    rw [ht1] at h1
    cases b with
    | false => exact ⟨.nil, fun _ _ => rfl⟩
    | true =>
      have hl := token_true_lt ht1
      have h2 := skipWs_adv (u := u) t1
      have h3 := token_adv '}' (skipWs u t1)
      cases ht3 : (skipWs u t1).token '}' with
      | mk b t3 =>
        rw [ht3] at h3
        simp only [ht3]
        cases b with
        | true => exact ⟨.nil, fun _ _ => rfl⟩
        | false =>
          obtain ⟨h4, h5⟩ := walks_sep (u := u) (fun t => walks_field (u := u) hi t) ',' t3
          have h13 := h2.trans h3
          have hle : t3.rest.length ≤ t1.rest.length := h13.le
          have hsuf := (h1.trans h13).suffix
          simp only
          cases hr : sepByErr (parseField u pv) (skipSpacedSep u ',') t3 with
          | none => exact ⟨h4.mono hsuf (by omega) (by simp [leftOf]), by simp⟩
          | some p =>
            obtain ⟨x, t4⟩ := p
            cases x with
            | error e => exact ⟨h4.mono hsuf (by omega) (by simp [leftOf]), by simp⟩
            | ok vals =>
              have h6 := skipWs_adv (u := u) t4
              have h7 := token_adv '}' (skipWs u t4)
              cases ht6 : (skipWs u t4).token '}' with
              | mk b t6 =>
                rw [ht6] at h7
                rw [hr] at h4
                have : t6.rest.length ≤ t4.rest.length := (h6.trans h7).le
                simp only [ht6]
                cases b with
                | false => exact ⟨h4.mono hsuf (by omega) (by simp [leftOf]), by simp⟩
                | true => exact ⟨h4.mono hsuf (by omega) (by simpa [leftOf] using this), by simp⟩

theorem walks_unnamed {pv : Toks → VRes} {asks : Toks → List Str} (hi : ∀ t, Walks pv asks t) (t : Toks) :
    WalksO t.rest (parseUnnamedComposite u pv t) (asksUnnamed u pv asks t) := by
  unfold WalksO parseUnnamedComposite asksUnnamed
  have h1 := token_adv '(' t
  cases ht1 : t.token '(' with
  | mk b t1 =>
    rw [ht1] at h1
    cases b with
    | false => exact ⟨.nil, fun _ _ => rfl⟩
    | true =>
      have hl := token_true_lt ht1
      have h2 := skipWs_adv (u := u) t1
      have h3 := token_adv ')' (skipWs u t1)
      cases ht3 : (skipWs u t1).token ')' with
      | mk b t3 =>
        rw [ht3] at h3
        simp only [ht3]
        cases b with
        | true => exact ⟨.nil, fun _ _ => rfl⟩
        | false =>
          obtain ⟨h4, h5⟩ := walks_sep (u := u) hi ',' t3
          have h13 := h2.trans h3
          have hle : t3.rest.length ≤ t1.rest.length := h13.le
          have hsuf := (h1.trans h13).suffix
          simp only
          cases hr : sepByErr pv (skipSpacedSep u ',') t3 with
          | none => exact ⟨h4.mono hsuf (by omega) (by simp [leftOf]), by simp⟩
          | some p =>
            obtain ⟨x, t4⟩ := p
            cases x with
            | error e => exact ⟨h4.mono hsuf (by omega) (by simp [leftOf]), by simp⟩
            | ok vals =>
              have h6 := skipWs_adv (u := u) t4
              have h7 := token_adv ')' (skipWs u t4)
              cases ht6 : (skipWs u t4).token ')' with
              | mk b t6 =>
                rw [ht6] at h7
                rw [hr] at h4
                have : t6.rest.length ≤ t4.rest.length := (h6.trans h7).le
                simp only [ht6]
                cases b with
                | false => exact ⟨h4.mono hsuf (by omega) (by simp [leftOf]), by simp⟩
                | true => exact ⟨h4.mono hsuf (by omega) (by simpa [leftOf] using this), by simp⟩

theorem walks_alt {α β : Type} {s : Str} {r : RRes α} {a : List Str} (f : α → β) {k : Unit → RRes β} {ka : Unit → List Str}
    (h1 : WalksO s r a) (h2 : WalksO s (k ()) (ka ())) : WalksO s (orAlt (r.map (PRes.map f)) k) (asksAlt r a ka) := by
  unfold WalksO orAlt asksAlt at *
  rcases r with _ | ⟨x, t'⟩
  · refine ⟨?_, by simp⟩
    simp only [List.append_nil]
    exact h1.1
  · rcases x with e | v
    · rcases e with _ | e
      · rw [h1.2 t' rfl]
        exact h2
      · refine ⟨?_, by simp [PRes.map]⟩
        simp only [List.append_nil]
        exact h1.1
    · refine ⟨?_, by simp [PRes.map]⟩
      simp only [List.append_nil]
      exact h1.1

theorem walks_leaf {α : Type} {s : Str} (r : RRes α) : WalksO s r [] := ⟨.nil, fun _ _ => rfl⟩

theorem map_id_res {α : Type} (r : RRes α) : r.map (PRes.map id) = r := by
  rcases r with _ | ⟨_ | _, _⟩ <;> rfl

theorem WalksO.mono {α : Type} {s s' : Str} {r : RRes α} {a : List Str} (h : WalksO s r a) (hs : s <:+ s') : WalksO s' r a :=
  ⟨h.1.mono hs hs.length_le (Nat.le_refl _), h.2⟩

theorem walks_variant {pv : Toks → VRes} {asks : Toks → List Str} (hi : ∀ t, Walks pv asks t) (t : Toks) :
    WalksO t.rest (parseVariant u pv t) (asksVariant u pv asks t) := by
  unfold parseVariant asksVariant
  have h1 := parseOptionalVariantIdent_adv (u := u) t
  cases hv : parseOptionalVariantIdent u t with
  | mk x t1 =>
    rw [hv] at h1
    cases x with
    | none => exact walks_leaf _
    | some ident =>
      simp only
      have h2 := h1.trans (skipWs_adv (u := u) t1)
      have key : WalksO (skipWs u t1).rest
          (orAlt ((parseNamedComposite u pv (skipWs u t1)).map (PRes.map id)) fun _ =>
            orAlt ((parseUnnamedComposite u pv (skipWs u t1)).map (PRes.map id)) fun _ => some (.error none, skipWs u t1))
          (asksAlt (parseNamedComposite u pv (skipWs u t1)) (asksNamed u pv asks (skipWs u t1)) fun _ =>
            asksAlt (parseUnnamedComposite u pv (skipWs u t1)) (asksUnnamed u pv asks (skipWs u t1)) fun _ => []) := by
        refine walks_alt id (walks_named (u := u) hi (skipWs u t1)) ?_
        exact walks_alt id (walks_unnamed (u := u) hi (skipWs u t1)) (walks_leaf _)
      have key := key.mono h2.suffix
      simp only [map_id_res] at key
      generalize orAlt (parseNamedComposite u pv (skipWs u t1)) _ = r at *
      rcases r with _ | ⟨x, t'⟩
      · exact ⟨key.1, by simp⟩
      · rcases x with e | v
        · exact ⟨key.1, by intro t'' h; cases h; exact key.2 _ rfl⟩
        · exact ⟨key.1, by simp⟩

theorem walks_builtin {pv : Toks → VRes} {asks : Toks → List Str} (hi : ∀ t, Walks pv asks t) (t : Toks) :
    Trail t.rest t.rest.length (leftOf (parseBuiltin u pv t)) (asksBuiltin u pv asks t) := by
  unfold parseBuiltin
  have key : WalksO t.rest
      (orAlt (some ((parseBool t).map Value.bool)) fun _ =>
        orAlt (some ((parseChar t).map Value.char)) fun _ =>
        orAlt (some ((parseString t).map Value.string)) fun _ =>
        orAlt (some ((parseNumber t).map Value.primitive)) fun _ =>
        orAlt ((parseNamedComposite u pv t).map (PRes.map fun c => .mk (.composite c) ())) fun _ =>
        orAlt ((parseUnnamedComposite u pv t).map (PRes.map fun c => .mk (.composite c) ())) fun _ =>
        orAlt (some ((parseBitSequence t).map Value.bitSequence)) fun _ =>
        orAlt ((parseVariant u pv t).map (PRes.map fun v => .mk (.variant v) ())) fun _ =>
        some (.error none, t))
      (asksBuiltin u pv asks t) := by
    unfold asksBuiltin
    refine walks_alt Value.bool (walks_leaf (some (parseBool t))) ?_
    refine walks_alt Value.char (walks_leaf (some (parseChar t))) ?_
    refine walks_alt Value.string (walks_leaf (some (parseString t))) ?_
    refine walks_alt Value.primitive (walks_leaf (some (parseNumber t))) ?_
    refine walks_alt (fun c => Value.mk (.composite c) ()) (walks_named (u := u) hi t) ?_
    refine walks_alt (fun c => Value.mk (.composite c) ()) (walks_unnamed (u := u) hi t) ?_
    refine walks_alt Value.bitSequence (walks_leaf (some (parseBitSequence t))) ?_
    exact walks_alt (fun v => Value.mk (.variant v) ()) (walks_variant (u := u) hi t) (walks_leaf _)
  simp only
  revert key
  generalize orAlt (some (PRes.map Value.bool (parseBool t))) _ = r
  intro key
  rcases r with _ | ⟨x, t'⟩
  · exact key.1
  · rcases x with (_ | e) | v <;> exact key.1

theorem walks_value (cps : List CustomParser) : ∀ (n : Nat) (t : Toks), Walks (parseValueN u cps n) (asksN u cps n) t := by
  intro n
  induction n with
  | zero => intro t; exact ⟨.nil, by simp [parseValueN]⟩
  | succ n ih =>
    intro t
    have hadv : ∀ v t', parseValueN u cps (n + 1) t = some (.ok v, t') → Adv t t' := by
      intro v t' h
      have h2 := parseValueN_mono cps (Nat.le_max_left (n + 1) (t.rest.length + 1)) _ _ h
      obtain ⟨x, t2, h3, h4, -⟩ := parseValueN_inv (u := u) cps (max (n + 1) (t.rest.length + 1)) t (by omega)
      rw [h2] at h3
      cases h3
      exact h4
    refine ⟨?_, hadv⟩
    have hlt : ∀ {r : VRes} {l}, Trail t.rest t.rest.length (leftOf r) l → (∀ v t', r = some (.ok v, t') → Adv t t') →
        Trail t.rest (t.rest.length + 1) (leftOf r) (t.rest :: l) := by
      intro r l h ha
      refine ⟨List.pairwise_cons.2 ⟨fun a ha => (h.2 a ha).2.2, h.1⟩, ?_⟩
      intro a hm
      rcases List.mem_cons.1 hm with rfl | hm
      · refine ⟨List.suffix_rfl, ?_, by omega⟩
        rcases r with _ | ⟨_ | v, t'⟩
        · simp [leftOf]
        · simp [leftOf]
        · exact (ha v t' rfl).le
      · obtain ⟨x, y, z⟩ := h.2 a hm
        exact ⟨x, y, by omega⟩
    refine hlt ?_ hadv
    show Trail _ _ (leftOf (parseValueStep u cps (parseValueN u cps n) t)) _
    unfold parseValueStep
    rcases hc : runCustom cps t.rest with ⟨_ | _ | v, cur⟩
    · exact walks_builtin ih t
    · exact .nil
    · exact .nil

/-! ### The result depends only on what is answered on these texts -/

/-- If all texts that are asked for are `G` then the other parser does the same. -/
def Agree {α ε : Type} (G : Str → Prop) (item item' : Toks → Option (Except ε α × Toks)) (asks asks' : Toks → List Str) (t : Toks) : Prop :=
  (∀ x ∈ asks t, G x) → item' t = item t ∧ asks' t = asks t

variable {G : Str → Prop}

theorem agree_sepRest {α : Type} {item item' : Toks → Option (Except ParseError α × Toks)} {asks asks' : Toks → List Str}
    (hi : ∀ t, Agree G item item' asks asks' t) (sep : Toks → Bool × Toks) : ∀ (fuel : Nat) (acc : List α) (t : Toks),
    (∀ x ∈ asksSepRest item asks sep fuel t, G x) →
      sepRest item' sep fuel acc t = sepRest item sep fuel acc t ∧ asksSepRest item' asks' sep fuel t = asksSepRest item asks sep fuel t := by
  intro fuel
  induction fuel with
  | zero => intro acc t _; exact ⟨rfl, rfl⟩
  | succ fuel ih =>
    intro acc t
    unfold sepRest asksSepRest
    rcases sep t with ⟨_ | _, t1⟩
    · exact fun _ => ⟨rfl, rfl⟩
    · intro h
      obtain ⟨h1, h2⟩ := hi t1 (fun x hx => h x (List.mem_append_left _ hx))
      simp only [h1, h2] at h ⊢
      rcases hit : item t1 with _ | ⟨_ | a, t2⟩
      · exact ⟨rfl, rfl⟩
      · exact ⟨rfl, rfl⟩
      · simp only [hit] at h ⊢
        obtain ⟨h3, h4⟩ := ih (acc ++ [a]) t2 (fun x hx => h x (List.mem_append_right _ hx))
        exact ⟨h3, by rw [h4]⟩

theorem agree_sep {α : Type} {item item' : Toks → Option (Except ParseError α × Toks)} {asks asks' : Toks → List Str}
    (hi : ∀ t, Agree G item item' asks asks' t) (sep : Toks → Bool × Toks) (t : Toks) :
    Agree G (sepByErr item sep) (sepByErr item' sep) (asksSep item asks sep) (asksSep item' asks' sep) t := by
  unfold Agree sepByErr asksSep
  intro h
  obtain ⟨h1, h2⟩ := hi t (fun x hx => h x (List.mem_append_left _ hx))
  rw [h1, h2]
  rcases hit : item t with _ | ⟨_ | a, t2⟩
  · exact ⟨rfl, rfl⟩
  · exact ⟨rfl, rfl⟩
  · simp only [hit] at h ⊢
    obtain ⟨h3, h4⟩ := agree_sepRest hi sep (t2.rest.length + 1) [a] t2 (fun x hx => h x (List.mem_append_right _ hx))
    exact ⟨h3, by rw [h4]⟩

theorem agree_field {pv pv' : Toks → VRes} {asks asks' : Toks → List Str} (hi : ∀ t, Agree G pv pv' asks asks' t) (t : Toks) :
    Agree G (parseField u pv) (parseField u pv') (asksField u asks) (asksField u asks') t := by
  unfold Agree parseField asksField
  rcases parseFieldName u t with ⟨_ | name, t1⟩
  · exact fun _ => ⟨rfl, rfl⟩
  · simp only
    rcases skipSpacedSep u ':' t1 with ⟨_ | _, t2⟩
    · exact fun _ => ⟨rfl, rfl⟩
    · intro h
      obtain ⟨h1, h2⟩ := hi t2 h
      simp only [h1, h2, and_self]

theorem agree_named {pv pv' : Toks → VRes} {asks asks' : Toks → List Str} (hi : ∀ t, Agree G pv pv' asks asks' t) (t : Toks) :
    Agree G (parseNamedComposite u pv) (parseNamedComposite u pv') (asksNamed u pv asks) (asksNamed u pv' asks') t := by
  unfold Agree parseNamedComposite asksNamed
  rcases t.token '{' with ⟨_ | _, t1⟩
  · exact fun _ => ⟨rfl, rfl⟩
  · simp only
    rcases (skipWs u t1).token '}' with ⟨_ | _, t3⟩
    · intro h
      obtain ⟨h1, h2⟩ := agree_sep (fun t => agree_field (u := u) hi t) (skipSpacedSep u ',') t3 h
      simp only [h1, h2, and_self]
    · exact fun _ => ⟨rfl, rfl⟩

theorem agree_unnamed {pv pv' : Toks → VRes} {asks asks' : Toks → List Str} (hi : ∀ t, Agree G pv pv' asks asks' t) (t : Toks) :
    Agree G (parseUnnamedComposite u pv) (parseUnnamedComposite u pv') (asksUnnamed u pv asks) (asksUnnamed u pv' asks') t := by
  unfold Agree parseUnnamedComposite asksUnnamed
  rcases t.token '(' with ⟨_ | _, t1⟩
  · exact fun _ => ⟨rfl, rfl⟩
  · simp only
    rcases (skipWs u t1).token ')' with ⟨_ | _, t3⟩
    · intro h
      obtain ⟨h1, h2⟩ := agree_sep hi (skipSpacedSep u ',') t3 h
      simp only [h1, h2, and_self]
    · exact fun _ => ⟨rfl, rfl⟩

/-- The same for alternatives of `one_of!`. -/
def AgreeO {α : Type} (G : Str → Prop) (r r' : RRes α) (a a' : List Str) : Prop := (∀ x ∈ a, G x) → r' = r ∧ a' = a

theorem agree_alt {α β : Type} {r r' : RRes α} {a a' : List Str} (f : α → β) {k k' : Unit → RRes β} {ka ka' : Unit → List Str}
    (h1 : AgreeO G r r' a a') (h2 : AgreeO G (k ()) (k' ()) (ka ()) (ka' ())) :
    AgreeO G (orAlt (r.map (PRes.map f)) k) (orAlt (r'.map (PRes.map f)) k') (asksAlt r a ka) (asksAlt r' a' ka') := by
  unfold AgreeO orAlt asksAlt at *
  intro h
  obtain ⟨rfl, rfl⟩ := h1 (fun x hx => h x (List.mem_append_left _ hx))
  rcases r' with _ | ⟨(_ | e) | v, t'⟩
  · exact ⟨rfl, rfl⟩
  · obtain ⟨h3, h4⟩ := h2 (fun x hx => h x (List.mem_append_right _ hx))
    simp only [Option.map_some, PRes.map]
    exact ⟨h3, by rw [h4]⟩
  · exact ⟨rfl, rfl⟩
  · exact ⟨rfl, rfl⟩

theorem agree_leaf {α : Type} (r : RRes α) : AgreeO G r r [] [] := fun _ => ⟨rfl, rfl⟩

theorem agree_variant {pv pv' : Toks → VRes} {asks asks' : Toks → List Str} (hi : ∀ t, Agree G pv pv' asks asks' t) (t : Toks) :
    AgreeO G (parseVariant u pv t) (parseVariant u pv' t) (asksVariant u pv asks t) (asksVariant u pv' asks' t) := by
  unfold parseVariant asksVariant
  rcases parseOptionalVariantIdent u t with ⟨_ | ident, t1⟩
  · exact agree_leaf _
  · simp only
    have key : AgreeO G
          (orAlt ((parseNamedComposite u pv (skipWs u t1)).map (PRes.map id)) fun _ =>
            orAlt ((parseUnnamedComposite u pv (skipWs u t1)).map (PRes.map id)) fun _ => some (.error none, skipWs u t1))
          (orAlt ((parseNamedComposite u pv' (skipWs u t1)).map (PRes.map id)) fun _ =>
            orAlt ((parseUnnamedComposite u pv' (skipWs u t1)).map (PRes.map id)) fun _ => some (.error none, skipWs u t1))
          (asksAlt (parseNamedComposite u pv (skipWs u t1)) (asksNamed u pv asks (skipWs u t1)) fun _ =>
            asksAlt (parseUnnamedComposite u pv (skipWs u t1)) (asksUnnamed u pv asks (skipWs u t1)) fun _ => [])
          (asksAlt (parseNamedComposite u pv' (skipWs u t1)) (asksNamed u pv' asks' (skipWs u t1)) fun _ =>
            asksAlt (parseUnnamedComposite u pv' (skipWs u t1)) (asksUnnamed u pv' asks' (skipWs u t1)) fun _ => []) := by
      refine agree_alt id (agree_named (u := u) hi (skipWs u t1)) ?_
      exact agree_alt id (agree_unnamed (u := u) hi (skipWs u t1)) (agree_leaf _)
    simp only [map_id_res] at key
    intro h
    obtain ⟨h1, h2⟩ := key h
    rw [h1, h2]
    exact ⟨rfl, rfl⟩

/-- The alternatives of `parse_value`. -/
def builtinAlts (u : Uni) (pv : Toks → VRes) (t : Toks) : RRes (Value Unit) :=
  orAlt (some ((parseBool t).map Value.bool)) fun _ =>
  orAlt (some ((parseChar t).map Value.char)) fun _ =>
  orAlt (some ((parseString t).map Value.string)) fun _ =>
  orAlt (some ((parseNumber t).map Value.primitive)) fun _ =>
  orAlt ((parseNamedComposite u pv t).map (PRes.map fun c => .mk (.composite c) ())) fun _ =>
  orAlt ((parseUnnamedComposite u pv t).map (PRes.map fun c => .mk (.composite c) ())) fun _ =>
  orAlt (some ((parseBitSequence t).map Value.bitSequence)) fun _ =>
  orAlt ((parseVariant u pv t).map (PRes.map fun v => .mk (.variant v) ())) fun _ =>
  some (.error none, t)

theorem parseBuiltin_eq (pv : Toks → VRes) (t : Toks) : parseBuiltin u pv t = match builtinAlts u pv t with
    | none => none
    | some (.ok v, t1) => some (.ok v, t1)
    | some (.error (some e), t1) => some (.error e, t1)
    | some (.error none, t1) => some (.error (ParseErrorKind.expectedValue.at t1.off), t1) := rfl

theorem agree_builtin {pv pv' : Toks → VRes} {asks asks' : Toks → List Str} (hi : ∀ t, Agree G pv pv' asks asks' t) (t : Toks) :
    Agree G (parseBuiltin u pv) (parseBuiltin u pv') (asksBuiltin u pv asks) (asksBuiltin u pv' asks') t := by
  have key : AgreeO G (builtinAlts u pv t) (builtinAlts u pv' t) (asksBuiltin u pv asks t) (asksBuiltin u pv' asks' t) := by
    unfold asksBuiltin builtinAlts
    refine agree_alt Value.bool (agree_leaf (some (parseBool t))) ?_
    refine agree_alt Value.char (agree_leaf (some (parseChar t))) ?_
    refine agree_alt Value.string (agree_leaf (some (parseString t))) ?_
    refine agree_alt Value.primitive (agree_leaf (some (parseNumber t))) ?_
    refine agree_alt (fun c => Value.mk (.composite c) ()) (agree_named (u := u) hi t) ?_
    refine agree_alt (fun c => Value.mk (.composite c) ()) (agree_unnamed (u := u) hi t) ?_
    refine agree_alt Value.bitSequence (agree_leaf (some (parseBitSequence t))) ?_
    exact agree_alt (fun v => Value.mk (.variant v) ()) (agree_variant (u := u) hi t) (agree_leaf _)
  intro h
  obtain ⟨h1, h2⟩ := key h
  rw [parseBuiltin_eq, parseBuiltin_eq, h1, h2]
  exact ⟨rfl, rfl⟩

theorem agree_value {cps cps' : List CustomParser} (hG : ∀ x, G x → runCustom cps' x = runCustom cps x) : ∀ (n : Nat) (t : Toks),
    Agree G (parseValueN u cps n) (parseValueN u cps' n) (asksN u cps n) (asksN u cps' n) t := by
  intro n
  induction n with
  | zero => intro t _; exact ⟨rfl, rfl⟩
  | succ n ih =>
    intro t h
    simp only [asksN, asksStep] at h ⊢
    have h1 := hG t.rest (h _ List.mem_cons_self)
    simp only [parseValueN, parseValueStep, h1]
    rcases hc : runCustom cps t.rest with ⟨_ | _ | v, cur⟩
    · simp only [hc] at h
      obtain ⟨h2, h3⟩ := agree_builtin (u := u) ih t (fun x hx => h x (List.mem_cons_of_mem _ hx))
      exact ⟨h2, by simp only; rw [h3]⟩
    · exact ⟨rfl, rfl⟩
    · exact ⟨rfl, rfl⟩

/-! ### Each of the texts is really asked for -/

/-- `x` is among the texts, and then the other parser ends with the error `E`. -/
def Hits {α ε : Type} (x : Str) (E : ε) (item' : Toks → Option (Except ε α × Toks)) (asks : Toks → List Str) (t : Toks) : Prop :=
  x ∈ asks t → ∃ t', item' t = some (.error E, t')

/-- Agreement of parsers but for the text `x`. -/
abbrev But {α ε : Type} (x : Str) (item item' : Toks → Option (Except ε α × Toks)) (asks asks' : Toks → List Str) : Prop :=
  ∀ t, Agree (· ≠ x) item item' asks asks' t

theorem ne_of_not_mem {x : Str} {l : List Str} (h : x ∉ l) : ∀ y ∈ l, y ≠ x := fun _ hy e => h (e ▸ hy)

variable {x : Str} {E : ParseError} {N : Nat}

/-- The offset and what is left make up the whole text of `N` bytes. -/
def Whole (N : Nat) (t : Toks) : Prop := t.off + utf8Len t.rest = N

theorem Whole.adv {a b : Toks} (h : Whole N a) (h' : Adv a b) : Whole N b := by
  obtain ⟨p, h1, h2⟩ := h'
  unfold Whole at *
  rw [h1] at h
  simp at h
  omega

theorem hits_sepRest {α : Type} {item item' : Toks → Option (Except ParseError α × Toks)} {asks asks' : Toks → List Str}
    (hw : ∀ t, Walks item asks t) (hb : But x item item' asks asks') (hi : ∀ t, Whole N t → Hits x E item' asks t) (c : Char) :
    ∀ (fuel : Nat) (acc : List α) (t : Toks), Whole N t →
    x ∈ asksSepRest item asks (skipSpacedSep u c) fuel t → ∃ t', sepRest item' (skipSpacedSep u c) fuel acc t = some (.error E, t') := by
  intro fuel
  induction fuel with
  | zero => intro acc t _ h; simp [asksSepRest] at h
  | succ fuel ih =>
    intro acc t hN
    unfold sepRest asksSepRest
    have hs := sep_adv (u := u) c t
    rcases hsep : skipSpacedSep u c t with ⟨_ | _, t1⟩
    · intro h; simp at h
    · rw [hsep] at hs
      simp only
      intro h
      by_cases hx : x ∈ asks t1
      · obtain ⟨t', h1⟩ := hi t1 (hN.adv hs) hx
        rw [h1]
        exact ⟨t, rfl⟩
      · rw [(hb t1 (ne_of_not_mem hx)).1]
        have h := (List.mem_append.1 h).resolve_left hx
        rcases hit : item t1 with _ | ⟨_ | a, t2⟩
        · simp [hit] at h
        · simp [hit] at h
        · simp only [hit] at h ⊢
          exact ih (acc ++ [a]) t2 (hN.adv (hs.trans ((hw t1).2 _ _ hit))) h

theorem hits_sep {α : Type} {item item' : Toks → Option (Except ParseError α × Toks)} {asks asks' : Toks → List Str}
    (hw : ∀ t, Walks item asks t) (hb : But x item item' asks asks') (hi : ∀ t, Whole N t → Hits x E item' asks t) (c : Char) (t : Toks) (hN : Whole N t) :
    Hits x E (sepByErr item' (skipSpacedSep u c)) (asksSep item asks (skipSpacedSep u c)) t := by
  unfold Hits sepByErr asksSep
  intro h
  by_cases hx : x ∈ asks t
  · obtain ⟨t', h1⟩ := hi t hN hx
    rw [h1]
    exact ⟨t, rfl⟩
  · rw [(hb t (ne_of_not_mem hx)).1]
    have h := (List.mem_append.1 h).resolve_left hx
    rcases hit : item t with _ | ⟨_ | a, t2⟩
    · simp [hit] at h
    · simp [hit] at h
    · simp only [hit] at h ⊢
      exact hits_sepRest hw hb hi c _ [a] t2 (hN.adv ((hw t).2 _ _ hit)) h

theorem hits_field {pv' : Toks → VRes} {asks : Toks → List Str} (hi : ∀ t, Whole N t → Hits x E pv' asks t) (t : Toks) (hN : Whole N t) :
    Hits x E (parseField u pv') (asksField u asks) t := by
  unfold Hits parseField asksField
  have h := (parseFieldName_inv (u := u) t).1
  rcases hf : parseFieldName u t with ⟨_ | name, t1⟩
  · intro h; simp at h
  · rw [hf] at h
    simp only
    have hs := sep_adv (u := u) ':' t1
    rcases hsep : skipSpacedSep u ':' t1 with ⟨_ | _, t2⟩
    · intro h; simp at h
    · rw [hsep] at hs
      intro hx
      obtain ⟨t', h1⟩ := hi t2 (hN.adv (h.trans hs)) hx
      simp only [h1]
      exact ⟨_, rfl⟩

theorem hits_named {pv pv' : Toks → VRes} {asks asks' : Toks → List Str} (hw : ∀ t, Walks pv asks t) (hb : But x pv pv' asks asks')
    (hi : ∀ t, Whole N t → Hits x E pv' asks t) (t : Toks) (hN : Whole N t) :
    Hits x (some E) (parseNamedComposite u pv') (asksNamed u pv asks) t := by
  unfold Hits parseNamedComposite asksNamed
  have h1 := token_adv '{' t
  rcases ht1 : t.token '{' with ⟨_ | _, t1⟩
  · intro h; simp at h
  · rw [ht1] at h1
    simp only
    have h2 := skipWs_adv (u := u) t1
    have h3 := token_adv '}' (skipWs u t1)
    rcases ht3 : (skipWs u t1).token '}' with ⟨_ | _, t3⟩
    · rw [ht3] at h3
      intro h
      obtain ⟨t', h4⟩ := hits_sep (u := u) (fun t => walks_field (u := u) hw t) (fun t => agree_field (u := u) hb t)
        (fun t ht => hits_field (u := u) hi t ht) ',' t3 (hN.adv (h1.trans (h2.trans h3))) h
      simp only [h4]
      exact ⟨_, rfl⟩
    · intro h; simp at h

theorem hits_unnamed {pv pv' : Toks → VRes} {asks asks' : Toks → List Str} (hw : ∀ t, Walks pv asks t) (hb : But x pv pv' asks asks')
    (hi : ∀ t, Whole N t → Hits x E pv' asks t) (t : Toks) (hN : Whole N t) :
    Hits x (some E) (parseUnnamedComposite u pv') (asksUnnamed u pv asks) t := by
  unfold Hits parseUnnamedComposite asksUnnamed
  have h1 := token_adv '(' t
  rcases ht1 : t.token '(' with ⟨_ | _, t1⟩
  · intro h; simp at h
  · rw [ht1] at h1
    simp only
    have h2 := skipWs_adv (u := u) t1
    have h3 := token_adv ')' (skipWs u t1)
    rcases ht3 : (skipWs u t1).token ')' with ⟨_ | _, t3⟩
    · rw [ht3] at h3
      intro h
      obtain ⟨t', h4⟩ := hits_sep (u := u) hw hb hi ',' t3 (hN.adv (h1.trans (h2.trans h3))) h
      simp only [h4]
      exact ⟨_, rfl⟩
    · intro h; simp at h

/-- The same for alternatives of `one_of!`. -/
def HitsO {α : Type} (x : Str) (E : ParseError) (r' : RRes α) (a : List Str) : Prop := x ∈ a → ∃ t', r' = some (.error (some E), t')

theorem hits_alt {α β : Type} {r r' : RRes α} {a a' : List Str} (f : α → β) {k' : Unit → RRes β} {ka : Unit → List Str}
    (hb : AgreeO (· ≠ x) r r' a a') (h1 : HitsO x E r' a) (h2 : HitsO x E (k' ()) (ka ())) :
    HitsO x E (orAlt (r'.map (PRes.map f)) k') (asksAlt r a ka) := by
  unfold HitsO orAlt asksAlt at *
  intro h
  by_cases hx : x ∈ a
  · obtain ⟨t', rfl⟩ := h1 hx
    exact ⟨t', rfl⟩
  · obtain ⟨rfl, -⟩ := hb (ne_of_not_mem hx)
    have h := (List.mem_append.1 h).resolve_left hx
    rcases r' with _ | ⟨(_ | e) | v, t'⟩
    · simp at h
    · exact h2 h
    · simp at h
    · simp at h

theorem hits_leaf {α : Type} (r : RRes α) : HitsO x E r [] := fun h => by simp at h

theorem hits_variant {pv pv' : Toks → VRes} {asks asks' : Toks → List Str} (hw : ∀ t, Walks pv asks t) (hb : But x pv pv' asks asks')
    (hi : ∀ t, Whole N t → Hits x E pv' asks t) (t : Toks) (hN : Whole N t) :
    HitsO x E (parseVariant u pv' t) (asksVariant u pv asks t) := by
  unfold parseVariant asksVariant
  have h1 := parseOptionalVariantIdent_adv (u := u) t
  rcases hv : parseOptionalVariantIdent u t with ⟨_ | ident, t1⟩
  · exact hits_leaf _
  · rw [hv] at h1
    simp only
    have hN2 := hN.adv (h1.trans (skipWs_adv (u := u) t1))
    have key : HitsO x E
          (orAlt ((parseNamedComposite u pv' (skipWs u t1)).map (PRes.map id)) fun _ =>
            orAlt ((parseUnnamedComposite u pv' (skipWs u t1)).map (PRes.map id)) fun _ => some (.error none, skipWs u t1))
          (asksAlt (parseNamedComposite u pv (skipWs u t1)) (asksNamed u pv asks (skipWs u t1)) fun _ =>
            asksAlt (parseUnnamedComposite u pv (skipWs u t1)) (asksUnnamed u pv asks (skipWs u t1)) fun _ => []) := by
      refine hits_alt id (agree_named (u := u) hb (skipWs u t1)) (hits_named (u := u) hw hb hi (skipWs u t1) hN2) ?_
      exact hits_alt id (agree_unnamed (u := u) hb (skipWs u t1)) (hits_unnamed (u := u) hw hb hi (skipWs u t1) hN2) (hits_leaf _)
    simp only [map_id_res] at key
    intro h
    obtain ⟨t', h1⟩ := key h
    rw [h1]
    exact ⟨_, rfl⟩

theorem hits_builtin {pv pv' : Toks → VRes} {asks asks' : Toks → List Str} (hw : ∀ t, Walks pv asks t) (hb : But x pv pv' asks asks')
    (hi : ∀ t, Whole N t → Hits x E pv' asks t) (t : Toks) (hN : Whole N t) :
    Hits x E (parseBuiltin u pv') (asksBuiltin u pv asks) t := by
  have key : HitsO x E (builtinAlts u pv' t) (asksBuiltin u pv asks t) := by
    unfold asksBuiltin builtinAlts
    refine hits_alt Value.bool (agree_leaf (some (parseBool t))) (hits_leaf _) ?_
    refine hits_alt Value.char (agree_leaf (some (parseChar t))) (hits_leaf _) ?_
    refine hits_alt Value.string (agree_leaf (some (parseString t))) (hits_leaf _) ?_
    refine hits_alt Value.primitive (agree_leaf (some (parseNumber t))) (hits_leaf _) ?_
    refine hits_alt (fun c => Value.mk (.composite c) ()) (agree_named (u := u) hb t) (hits_named (u := u) hw hb hi t hN) ?_
    refine hits_alt (fun c => Value.mk (.composite c) ()) (agree_unnamed (u := u) hb t) (hits_unnamed (u := u) hw hb hi t hN) ?_
    refine hits_alt Value.bitSequence (agree_leaf (some (parseBitSequence t))) (hits_leaf _) ?_
    exact hits_alt (fun v => Value.mk (.variant v) ()) (agree_variant (u := u) hb t) (hits_variant (u := u) hw hb hi t hN) (hits_leaf _)
  intro h
  obtain ⟨t', h1⟩ := key h
  rw [parseBuiltin_eq, h1]
  exact ⟨_, rfl⟩

theorem hits_value {cps cps' : List CustomParser} {e : ParseError} {c : Str} (hx : runCustom cps' x = (some (.error e), c))
    (hne : ∀ y, y ≠ x → runCustom cps' y = runCustom cps y) : ∀ (n : Nat) (t : Toks), Whole N t →
    Hits x ⟨N - utf8Len x + e.startLoc, e.endLoc.map (fun l => N - utf8Len x + l), e.err⟩ (parseValueN u cps' n) (asksN u cps n) t := by
  intro n
  induction n with
  | zero => intro t _ h; simp [asksN] at h
  | succ n ih =>
    intro t hN h
    simp only [asksN, asksStep] at h
    simp only [parseValueN, parseValueStep]
    by_cases hr : t.rest = x
    · rw [hr, hx]
      have : N - utf8Len x = t.off := by unfold Whole at hN; rw [hr] at hN; omega
      exact ⟨t, by rw [this]⟩
    · rw [hne _ hr]
      have h := (List.mem_cons.1 h).resolve_left (fun e => hr e.symm)
      rcases hc : runCustom cps t.rest with ⟨_ | _ | v, cur⟩
      · simp only [hc] at h ⊢
        exact hits_builtin (u := u) (fun t => walks_value cps n t) (fun t => agree_value (fun y hy => hne y hy) n t) ih t hN h
      · simp [hc] at h
      · simp [hc] at h

/-! ### As many as there are values -/

theorem count_sepRest {α : Type} {item : Toks → Option (Except ParseError α × Toks)} {asks : Toks → List Str} {cnt : α → Nat}
    (hi : ∀ t v t', item t = some (.ok v, t') → (asks t).length = cnt v) (sep : Toks → Bool × Toks) : ∀ (fuel : Nat) (acc : List α) (t : Toks) (l : List α) (t' : Toks),
    sepRest item sep fuel acc t = some (.ok l, t') → (asksSepRest item asks sep fuel t).length + (acc.map cnt).sum = (l.map cnt).sum := by
  intro fuel
  induction fuel with
  | zero => intro acc t l t' h; cases h
  | succ fuel ih =>
    intro acc t l t'
    unfold sepRest asksSepRest
    rcases sep t with ⟨_ | _, t1⟩
    · intro h; cases h; simp
    · simp only
      rcases hit : item t1 with _ | ⟨_ | a, t2⟩
      · intro h; cases h
      · intro h; cases h
      · intro h
        have := ih _ _ _ _ h
        have h1 := hi _ _ _ hit
        simp at this ⊢
        omega

theorem count_sep {α : Type} {item : Toks → Option (Except ParseError α × Toks)} {asks : Toks → List Str} {cnt : α → Nat}
    (hi : ∀ t v t', item t = some (.ok v, t') → (asks t).length = cnt v) (sep : Toks → Bool × Toks) (t : Toks) (l : List α) (t' : Toks)
    (h : sepByErr item sep t = some (.ok l, t')) : (asksSep item asks sep t).length = (l.map cnt).sum := by
  unfold sepByErr at h
  unfold asksSep
  rcases hit : item t with _ | ⟨_ | a, t2⟩
  · rw [hit] at h; cases h
  · rw [hit] at h; cases h
  · rw [hit] at h
    have := count_sepRest hi sep _ _ _ _ _ h
    have h1 := hi _ _ _ hit
    simp at this ⊢
    omega

theorem fieldsCount_eq {T : Type} (fs : List (Str × Value T)) : fieldsCount fs = (fs.map (fun p => p.2.count)).sum := by
  induction fs with
  | nil => rfl
  | cons p fs ih => obtain ⟨n, v⟩ := p; simp [fieldsCount, ih]

theorem valuesCount_eq {T : Type} (vs : List (Value T)) : valuesCount vs = (vs.map Value.count).sum := by
  induction vs with
  | nil => rfl
  | cons v vs ih => simp [valuesCount, ih]

/-- The number of values in a composite. -/
def compCount {T : Type} (c : Composite T) : Nat := (c.vals.map Value.count).sum

variable {pv : Toks → VRes} {asks : Toks → List Str}

theorem count_field (hi : ∀ t v t', pv t = some (.ok v, t') → (asks t).length = v.count) (t : Toks) (p : Str × Value Unit) (t' : Toks)
    (h : parseField u pv t = some (.ok p, t')) : (asksField u asks t).length = p.2.count := by
  unfold parseField at h
  unfold asksField
  rcases hf : parseFieldName u t with ⟨_ | name, t1⟩
  · rw [hf] at h; cases h
  · rw [hf] at h
    simp only at h ⊢
    rcases hs : skipSpacedSep u ':' t1 with ⟨_ | _, t2⟩
    · rw [hs] at h; cases h
    · rw [hs] at h
      simp only at h ⊢
      rcases hp : pv t2 with _ | ⟨_ | v, t3⟩
      · rw [hp] at h; cases h
      · rw [hp] at h; cases h
      · rw [hp] at h
        cases h
        exact hi _ _ _ hp

theorem count_named (hi : ∀ t v t', pv t = some (.ok v, t') → (asks t).length = v.count) (t : Toks) (c : Composite Unit) (t' : Toks)
    (h : parseNamedComposite u pv t = some (.ok c, t')) : (asksNamed u pv asks t).length = compCount c := by
  unfold parseNamedComposite at h
  unfold asksNamed
  rcases ht1 : t.token '{' with ⟨_ | _, t1⟩
  · rw [ht1] at h; cases h
  · rw [ht1] at h
    simp only at h ⊢
    rcases ht3 : (skipWs u t1).token '}' with ⟨_ | _, t3⟩
    · rw [ht3] at h
      simp only at h ⊢
      rcases hr : sepByErr (parseField u pv) (skipSpacedSep u ',') t3 with _ | ⟨_ | l, t4⟩
      · rw [hr] at h; cases h
      · rw [hr] at h; cases h
      · rw [hr] at h
        simp only at h
        have := count_sep (fun t v t' => count_field (u := u) hi t v t') _ _ _ _ hr
        rcases ht6 : (skipWs u t4).token '}' with ⟨_ | _, t6⟩
        · rw [ht6] at h; cases h
        · rw [ht6] at h
          cases h
          simp only [compCount, Composite.vals, List.map_map]
          exact this
    · rw [ht3] at h
      cases h
      rfl

theorem count_unnamed (hi : ∀ t v t', pv t = some (.ok v, t') → (asks t).length = v.count) (t : Toks) (c : Composite Unit) (t' : Toks)
    (h : parseUnnamedComposite u pv t = some (.ok c, t')) : (asksUnnamed u pv asks t).length = compCount c := by
  unfold parseUnnamedComposite at h
  unfold asksUnnamed
  rcases ht1 : t.token '(' with ⟨_ | _, t1⟩
  · rw [ht1] at h; cases h
  · rw [ht1] at h
    simp only at h ⊢
    rcases ht3 : (skipWs u t1).token ')' with ⟨_ | _, t3⟩
    · rw [ht3] at h
      simp only at h ⊢
      rcases hr : sepByErr pv (skipSpacedSep u ',') t3 with _ | ⟨_ | l, t4⟩
      · rw [hr] at h; cases h
      · rw [hr] at h; cases h
      · rw [hr] at h
        simp only at h
        have := count_sep hi _ _ _ _ hr
        rcases ht6 : (skipWs u t4).token ')' with ⟨_ | _, t6⟩
        · rw [ht6] at h; cases h
        · rw [ht6] at h
          cases h
          exact this
    · rw [ht3] at h
      cases h
      rfl

theorem count_alt {α β : Type} {s : Str} {r : RRes α} {a : List Str} {f : α → β} {k : Unit → RRes β} {ka : Unit → List Str} {cnt : β → Nat}
    (h0 : WalksO s r a)
    (h1 : ∀ v t', r = some (.ok v, t') → a.length = cnt (f v)) (h2 : ∀ v t', k () = some (.ok v, t') → (ka ()).length = cnt v) :
    ∀ v t', orAlt (r.map (PRes.map f)) k = some (.ok v, t') → (asksAlt r a ka).length = cnt v := by
  intro v t' h
  unfold orAlt at h
  unfold asksAlt
  rcases r with _ | ⟨(_ | e) | w, t1⟩
  · cases h
  · rw [h0.2 t1 rfl]
    simpa using h2 v t' h
  · cases h
  · cases h
    simpa using h1 w t' rfl

theorem count_variant (hw : ∀ t, Walks pv asks t) (hi : ∀ t v t', pv t = some (.ok v, t') → (asks t).length = v.count) (t : Toks) (v : Variant Unit) (t' : Toks)
    (h : parseVariant u pv t = some (.ok v, t')) : (asksVariant u pv asks t).length = (Value.mk (.variant v) ()).count - 1 := by
  unfold parseVariant at h
  unfold asksVariant
  rcases hv : parseOptionalVariantIdent u t with ⟨_ | ident, t1⟩
  · rw [hv] at h; cases h
  · rw [hv] at h
    simp only at h ⊢
    have key : ∀ c t', orAlt ((parseNamedComposite u pv (skipWs u t1)).map (PRes.map id)) (fun _ =>
            orAlt ((parseUnnamedComposite u pv (skipWs u t1)).map (PRes.map id)) fun _ => some (.error none, skipWs u t1)) = some (.ok c, t') →
          (asksAlt (parseNamedComposite u pv (skipWs u t1)) (asksNamed u pv asks (skipWs u t1)) fun _ =>
            asksAlt (parseUnnamedComposite u pv (skipWs u t1)) (asksUnnamed u pv asks (skipWs u t1)) fun _ => []).length = compCount c := by
      refine count_alt (cnt := compCount) (walks_named (u := u) hw (skipWs u t1)) (fun c t' h => count_named (u := u) hi _ _ _ h) ?_
      exact count_alt (cnt := compCount) (walks_unnamed (u := u) hw (skipWs u t1)) (fun c t' h => count_unnamed (u := u) hi _ _ _ h) (by simp)
    simp only [map_id_res] at key
    revert h
    generalize hr : orAlt (parseNamedComposite u pv (skipWs u t1)) _ = r at *
    intro h
    rcases r with _ | ⟨_ | c, t3⟩
    · cases h
    · cases h
    · cases h
      rw [key _ _ rfl]
      rcases c with fs | vs
      · simp [Value.count, fieldsCount_eq, compCount, Composite.vals, Function.comp_def]
      · simp [Value.count, valuesCount_eq, compCount, Composite.vals]

theorem count_builtin (hw : ∀ t, Walks pv asks t) (hi : ∀ t v t', pv t = some (.ok v, t') → (asks t).length = v.count) (t : Toks) (v : Value Unit) (t' : Toks)
    (h : parseBuiltin u pv t = some (.ok v, t')) : (asksBuiltin u pv asks t).length = v.count - 1 := by
  have key : ∀ v t', builtinAlts u pv t = some (.ok v, t') → (asksBuiltin u pv asks t).length = v.count - 1 := by
    have hc : ∀ c : Composite Unit, compCount c = (Value.mk (.composite c) ()).count - 1 := by
      intro c
      rcases c with fs | vs
      · simp [Value.count, fieldsCount_eq, compCount, Composite.vals, Function.comp_def]
      · simp [Value.count, valuesCount_eq, compCount, Composite.vals]
    unfold asksBuiltin builtinAlts
    refine count_alt (cnt := fun v : Value Unit => v.count - 1) (walks_leaf (s := t.rest) (some (parseBool t))) (by intro v t' _; rfl) ?_
    refine count_alt (cnt := fun v : Value Unit => v.count - 1) (walks_leaf (s := t.rest) (some (parseChar t))) (by intro v t' _; rfl) ?_
    refine count_alt (cnt := fun v : Value Unit => v.count - 1) (walks_leaf (s := t.rest) (some (parseString t))) (by intro v t' _; rfl) ?_
    refine count_alt (cnt := fun v : Value Unit => v.count - 1) (walks_leaf (s := t.rest) (some (parseNumber t))) (by intro v t' _; rfl) ?_
    refine count_alt (cnt := fun v : Value Unit => v.count - 1) (walks_named (u := u) hw t) (fun c t' h => (count_named (u := u) hi _ _ _ h).trans (hc c)) ?_
    refine count_alt (cnt := fun v : Value Unit => v.count - 1) (walks_unnamed (u := u) hw t) (fun c t' h => (count_unnamed (u := u) hi _ _ _ h).trans (hc c)) ?_
    refine count_alt (cnt := fun v : Value Unit => v.count - 1) (walks_leaf (s := t.rest) (some (parseBitSequence t))) (by intro v t' _; rfl) ?_
    exact count_alt (cnt := fun v : Value Unit => v.count - 1) (walks_variant (u := u) hw t) (fun c t' h => count_variant (u := u) hw hi _ _ _ h) (by simp)
  rw [parseBuiltin_eq] at h
  rcases hr : builtinAlts u pv t with _ | ⟨(_ | e) | w, t1⟩
  · rw [hr] at h; cases h
  · rw [hr] at h; cases h
  · rw [hr] at h; cases h
  · rw [hr] at h; cases h
    exact key _ _ hr

theorem count_value : ∀ (n : Nat) (t : Toks) (v : Value Unit) (t' : Toks), parseValueN u [] n t = some (.ok v, t') → (asksN u [] n t).length = v.count := by
  intro n
  induction n with
  | zero => intro t v t' h; cases h
  | succ n ih =>
    intro t v t' h
    have := count_builtin (u := u) (fun t => walks_value [] n t) ih t v t' h
    have hp : 0 < v.count := by
      obtain ⟨d, x⟩ := v
      rcases d with c | c | b | p
      · rcases c with fs | vs <;> simp [Value.count]
      · obtain ⟨n, c⟩ := c
        rcases c with fs | vs <;> simp [Value.count]
      · simp [Value.count]
      · simp [Value.count]
    show (asksBuiltin u _ _ t).length + 1 = _
    omega

end SV
