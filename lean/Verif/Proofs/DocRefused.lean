import Verif.Proofs.Doc
/-
Documents are read or refused, and each has a deserializer.
-/
namespace SV

theorem forall₂_or {A B : Type} {P : A → B → Prop} {Q : A → Prop} : ∀ (xs : List A), (∀ x ∈ xs, (∃ v, P x v) ∨ Q x) →
    (∃ vs, List.Forall₂ P xs vs) ∨ ∃ x ∈ xs, Q x
  | [], _ => .inl ⟨[], .nil⟩
  | x :: xs, h => by
    rcases h x List.mem_cons_self with ⟨v, hv⟩ | hq
    · rcases forall₂_or xs (fun y hy => h y (List.mem_cons_of_mem _ hy)) with ⟨vs, hvs⟩ | ⟨y, hy, hq⟩
      · exact .inl ⟨v :: vs, .cons hv hvs⟩
      · exact .inr ⟨y, List.mem_cons_of_mem _ hy, hq⟩
    · exact .inr ⟨x, List.mem_cons_self, hq⟩

theorem forall₂_some_of_mem {A B : Type} {P : A → B → Prop} {xs : List A} {vs : List B} (h : List.Forall₂ P xs vs) {x : A} (hx : x ∈ xs) : ∃ v, P x v := by
  induction h with
  | nil => cases hx
  | cons h1 _ ih => cases hx with
    | head => exact ⟨_, h1⟩
    | tail _ hx => exact ih hx

mutual
theorem value_or_refused {strict : Bool} : ∀ doc : Doc, (∃ v, DocValue strict doc v) ∨ DocRefused strict doc
  | .unit => .inl ⟨_, .unit⟩
  | .bool _ => .inl ⟨_, .bool _⟩
  | .num _ => .inl ⟨_, .num (repNum_iff.2 rfl)⟩
  | .float => .inr .float
  | .char _ => .inl ⟨_, .char _⟩
  | .str _ => .inl ⟨_, .str _⟩
  | .bytes _ => .inl ⟨_, .bytes (byteList_iff.2 rfl)⟩
  | .none => .inl ⟨_, .none⟩
  | .some x => (value_or_refused x).elim (fun ⟨_, h⟩ => .inl ⟨_, .some h⟩) (fun h => .inr (.some h))
  | .newtype x => (value_or_refused x).elim (fun ⟨_, h⟩ => .inl ⟨_, .newtype h⟩) (fun h => .inr (.newtype h))
  | .seq xs => by
    rcases forall₂_or xs (fun x hx => value_or_refused x) with ⟨vs, h⟩ | ⟨x, hx, h⟩
    · obtain ⟨h1, h2⟩ := pointwise_forall₂.2 h
      exact .inl ⟨_, .seq h1 h2⟩
    · exact .inr (.seq hx h)
  | .map es => by
    by_cases hb : BitMap es
    · obtain ⟨⟨k, x⟩, hp, hk⟩ := hb
      cases es with
      | nil => cases hp
      | cons e es =>
        cases hp
        by_cases hx : ∃ bs, DocBools x bs
        · obtain ⟨bs, hx⟩ := hx
          by_cases hs : strict = true → es = []
          · exact .inl ⟨_, .bitMap hk hx hs⟩
          · have : strict = true ∧ es ≠ [] := by
              constructor
              · exact Classical.byContradiction fun h => hs (fun h' => (h h').elim)
              · intro h; exact hs (fun _ => h)
            exact .inr (.bitsRest hk this.1 this.2)
        · exact .inr (.bits hk (fun bs h => hx ⟨bs, h⟩))
    · rcases forall₂_or (P := fun (e : Doc × Doc) (f : Str × Value Unit) => DocName e.1 f.1 ∧ DocValue strict e.2 f.2)
        (Q := fun e => (∀ s, ¬ DocName e.1 s) ∨ DocRefused strict e.2) es (fun e he => by
          obtain ⟨k, x⟩ := e
          by_cases hk : ∃ s, DocName k s
          · obtain ⟨s, hk⟩ := hk
            exact (value_or_refused x).elim (fun ⟨v, h⟩ => .inl ⟨(s, v), hk, h⟩) (fun h => .inr (.inr h))
          · exact .inr (.inl (fun s h => hk ⟨s, h⟩))) with ⟨vs, h⟩ | ⟨⟨k, x⟩, hx, h | h⟩
      · obtain ⟨h1, h2⟩ := pointwise_forall₂.2 h
        exact .inl ⟨_, .map hb h1 (fun i e f a b => (h2 i e f a b).1) (fun i e f a b => (h2 i e f a b).2)⟩
      · exact .inr (.mapKey hb hx h)
      · exact .inr (.mapVal hb hx h)
  | .enum x y => by
    by_cases hk : ∃ s, DocName x s
    · obtain ⟨s, hk⟩ := hk
      exact (composite_or_not y).elim (fun ⟨v, h⟩ => .inl ⟨_, .enum hk h⟩) (fun h => .inr (.enum h))
    · exact .inr (.enumName (fun s h => hk ⟨s, h⟩))
  | .bad _ => .inr .bad
termination_by doc => sizeOf doc
decreasing_by
  all_goals first
    | decreasing_tactic
    | (simp only [Doc.map.sizeOf_spec]; have := List.sizeOf_lt_of_mem he; simp only [Prod.mk.sizeOf_spec] at this; omega)
theorem composite_or_not {strict : Bool} : ∀ doc : Doc, (∃ v, DocComposite strict doc v) ∨ DocNoComposite strict doc
  | .unit => .inl ⟨_, .unit⟩
  | .bool _ => .inr .bool
  | .num _ => .inr .num
  | .float => .inr .float
  | .char _ => .inr .char
  | .str _ => .inr .str
  | .bytes _ => .inl ⟨_, .bytes (byteList_iff.2 rfl)⟩
  | .none => .inr .none
  | .some x => .inr .some
  | .newtype x => (composite_or_not x).elim (fun ⟨_, h⟩ => .inl ⟨_, .newtype h⟩) (fun h => .inr (.newtype h))
  | .seq xs => by
    rcases forall₂_or xs (fun x hx => value_or_refused x) with ⟨vs, h⟩ | ⟨x, hx, h⟩
    · obtain ⟨h1, h2⟩ := pointwise_forall₂.2 h
      exact .inl ⟨_, .seq h1 h2⟩
    · exact .inr (.seq hx h)
  | .map es => by
    rcases forall₂_or (P := fun (e : Doc × Doc) (f : Str × Value Unit) => DocName e.1 f.1 ∧ DocValue strict e.2 f.2)
        (Q := fun e => (∀ s, ¬ DocName e.1 s) ∨ DocRefused strict e.2) es (fun e he => by
          obtain ⟨k, x⟩ := e
          by_cases hk : ∃ s, DocName k s
          · obtain ⟨s, hk⟩ := hk
            exact (value_or_refused x).elim (fun ⟨v, h⟩ => .inl ⟨(s, v), hk, h⟩) (fun h => .inr (.inr h))
          · exact .inr (.inl (fun s h => hk ⟨s, h⟩))) with ⟨vs, h⟩ | ⟨⟨k, x⟩, hx, h | h⟩
    · obtain ⟨h1, h2⟩ := pointwise_forall₂.2 h
      exact .inl ⟨_, .map h1 (fun i e f a b => (h2 i e f a b).1) (fun i e f a b => (h2 i e f a b).2)⟩
    · exact .inr (.mapKey hx h)
    · exact .inr (.mapVal hx h)
  | .enum x y => .inr .enum
  | .bad _ => .inr .bad
termination_by doc => sizeOf doc
decreasing_by
  all_goals first
    | decreasing_tactic
    | (simp only [Doc.map.sizeOf_spec]; have := List.sizeOf_lt_of_mem he; simp only [Prod.mk.sizeOf_spec] at this; omega)
end

theorem entries_names {strict : Bool} {es : List (Doc × Doc)} {fs : List (Str × Value Unit)} (len : es.length = fs.length)
    (key : ∀ (i : Nat) (e : Doc × Doc) (f : Str × Value Unit), es[i]? = some e → fs[i]? = some f → DocName e.1 f.1)
    (sub : ∀ (i : Nat) (e : Doc × Doc) (f : Str × Value Unit), es[i]? = some e → fs[i]? = some f → DocValue strict e.2 f.2) {e : Doc × Doc} (he : e ∈ es) :
    (∃ s, DocName e.1 s) ∧ ∃ v, DocValue strict e.2 v := by
  obtain ⟨f, h⟩ := forall₂_some_of_mem (pointwise_forall₂.1 ⟨len, fun i e f a b => (⟨key i e f a b, sub i e f a b⟩ : DocName e.1 f.1 ∧ DocValue strict e.2 f.2)⟩) he
  exact ⟨⟨_, h.1⟩, _, h.2⟩

mutual
theorem value_not_refused {strict : Bool} {doc : Doc} : DocRefused strict doc → ∀ v, ¬ DocValue strict doc v
  | .float, _, h => by cases h
  | .bad, _, h => by cases h
  | .some hr, _, h => by cases h with | some h => exact value_not_refused hr _ h
  | .newtype hr, _, h => by cases h with | newtype h => exact value_not_refused hr _ h
  | .seq mem hr, _, h => by
    cases h with
    | seq len sub =>
      obtain ⟨v, hv⟩ := forall₂_some_of_mem (pointwise_forall₂.1 ⟨len, sub⟩) mem
      exact value_not_refused hr v hv
  | .mapKey bits mem hr, _, h => by
    cases h with
    | map _ len key sub =>
      obtain ⟨⟨s, hs⟩, -⟩ := entries_names len key sub mem
      exact hr s hs
    | bitMap key _ _ => exact bits ⟨_, rfl, key⟩
  | .mapVal bits mem hr, _, h => by
    cases h with
    | map _ len key sub =>
      obtain ⟨-, v, hv⟩ := entries_names len key sub mem
      exact value_not_refused hr v hv
    | bitMap key _ _ => exact bits ⟨_, rfl, key⟩
  | .bits key hr, _, h => by
    cases h with
    | map nb _ _ _ => exact nb ⟨_, rfl, key⟩
    | bitMap _ hb _ => exact hr _ hb
  | .bitsRest key hs hr, _, h => by
    cases h with
    | map nb _ _ _ => exact nb ⟨_, rfl, key⟩
    | bitMap _ _ hrest => exact hr (hrest hs)
  | .enumName hr, _, h => by cases h with | enum hn _ => exact hr _ hn
  | .enum hr, _, h => by cases h with | enum _ h => exact composite_not_no hr _ h
theorem composite_not_no {strict : Bool} {doc : Doc} : DocNoComposite strict doc → ∀ v, ¬ DocComposite strict doc v
  | .bool, _, h => by cases h
  | .num, _, h => by cases h
  | .float, _, h => by cases h
  | .char, _, h => by cases h
  | .str, _, h => by cases h
  | .none, _, h => by cases h
  | .some, _, h => by cases h
  | .enum, _, h => by cases h
  | .bad, _, h => by cases h
  | .newtype hr, _, h => by cases h with | newtype h => exact composite_not_no hr _ h
  | .seq mem hr, _, h => by
    cases h with
    | seq len sub =>
      obtain ⟨v, hv⟩ := forall₂_some_of_mem (pointwise_forall₂.1 ⟨len, sub⟩) mem
      exact value_not_refused hr v hv
  | .mapKey mem hr, _, h => by
    cases h with
    | map len key sub =>
      obtain ⟨⟨s, hs⟩, -⟩ := entries_names len key sub mem
      exact hr s hs
  | .mapVal mem hr, _, h => by
    cases h with
    | map len key sub =>
      obtain ⟨-, v, hv⟩ := entries_names len key sub mem
      exact value_not_refused hr v hv
end

mutual
theorem shows_der (strict : Bool) : ∀ doc : Doc, Shows strict (doc.der strict) doc
  | .unit => .unit (fun _ _ => rfl)
  | .bool _ => .bool (fun _ _ => rfl)
  | .num _ => .num (fun _ _ => rfl)
  | .float => .float (fun _ _ => rfl)
  | .char _ => .char (fun _ _ => rfl)
  | .str _ => .str (fun _ _ => rfl)
  | .bytes _ => .bytes (fun _ _ => rfl)
  | .none => .none (fun _ _ => rfl)
  | .some x => .some (fun _ _ => rfl) (shows_der strict x)
  | .newtype x => .newtype (fun _ _ => rfl) (shows_der strict x)
  | .seq xs => .seq (fun _ _ => rfl) (pointwise_forall₂.2 (shows_ders strict xs)).1 (pointwise_forall₂.2 (shows_ders strict xs)).2
  | .map es => .map (fun _ _ => rfl) (pointwise_forall₂.2 (shows_entries strict es)).1
      (fun i e x a b => ((pointwise_forall₂.2 (shows_entries strict es)).2 i e x a b).1)
      (fun i e x a b => ((pointwise_forall₂.2 (shows_entries strict es)).2 i e x a b).2)
  | .enum x y => .enum (fun _ _ => rfl) (shows_der strict x) (shows_der strict y)
  | .bad _ => .bad (fun _ _ => rfl)
theorem shows_ders (strict : Bool) : ∀ xs : List Doc, List.Forall₂ (Shows strict) (docDers strict xs) xs
  | [] => .nil
  | x :: xs => .cons (shows_der strict x) (shows_ders strict xs)
theorem shows_entries (strict : Bool) : ∀ es : List (Doc × Doc),
    List.Forall₂ (fun e x => Shows strict e.1 x.1 ∧ Shows strict e.2 x.2) (docEntries strict es) es
  | [] => .nil
  | (k, x) :: xs => .cons ⟨shows_der strict k, shows_der strict x⟩ (shows_entries strict xs)
end

end SV
