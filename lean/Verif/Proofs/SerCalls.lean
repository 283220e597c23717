import Verif.Spec.SerCalls
import Verif.Proofs.Serde
/-
Proofs about histories of calls of the compound serializers.
-/
namespace SV

/-- The machine on events: the entries made, and the key that is left. -/
def eventRun : Option Str → List MapEvent → Option (List (Str × Value Unit) × Option Str)
  | k, [] => some ([], k)
  | _, .key n :: es => eventRun (some n) es
  | k, .badKey :: es => eventRun k es
  | none, .value _ :: _ => none
  | some n, .value v :: es => (eventRun none es).map (fun r => ((n, v) :: r.1, r.2))
  | none, .badValue :: _ => none
  | some _, .badValue :: es => eventRun none es

theorem setKey_event {s : MapSer} {x : Inner} {e : MapEvent} (h : KeyEvent x e) :
    (∃ n, e = .key n ∧ s.setKey x = (.ok (), { s with key := some n })) ∨ (e = .badKey ∧ ∃ err, s.setKey x = (.error err, s)) := by
  cases h with
  | good h => exact .inl ⟨_, rfl, by simp only [MapSer.setKey, keyOf_ok.2 h]⟩
  | @bad v h =>
    refine .inr ⟨rfl, ?_⟩
    cases hk : keyOf v with
    | ok s => exact (h s (keyOf_ok.1 hk)).elim
    | error err => exact ⟨err, by simp only [MapSer.setKey, hk]⟩
  | error => exact .inr ⟨rfl, _, rfl⟩

theorem calls_events {s : MapSer} {cs : List MapCall} {es : List MapEvent} (h : Events cs es) :
    s.calls cs = (eventRun s.key es).map (fun r => ⟨s.variantName, s.values ++ r.1, r.2⟩) := by
  have hv : ∀ (s : MapSer) (x : Inner) (e : MapEvent) (cs : List MapCall) (es : List MapEvent), ValueEvent x e →
      (∀ s : MapSer, s.calls cs = (eventRun s.key es).map (fun r => ⟨s.variantName, s.values ++ r.1, r.2⟩)) →
      (match s.value x with
        | none => none
        | some (_, s') => s'.calls cs) = (eventRun s.key (e :: es)).map (fun r => ⟨s.variantName, s.values ++ r.1, r.2⟩) := by
    intro s x e cs es h ih
    obtain ⟨vn, vals, k⟩ := s
    cases k with
    | none => cases h <;> rfl
    | some n =>
      cases h with
      | good =>
        simp only [MapSer.value, MapSer.field, eventRun, ih]
        rcases eventRun none es with _ | ⟨l, k⟩
        · rfl
        · simp
      | error => simp only [MapSer.value, MapSer.field, eventRun, ih]
  induction h generalizing s with
  | nil => simp [MapSer.calls, eventRun]
  | key h _ ih =>
    rw [MapSer.calls, MapSer.call]
    rcases setKey_event (s := s) h with ⟨n, rfl, hk⟩ | ⟨rfl, err, hk⟩
    · rw [hk]; simp only [ih, eventRun]
    · rw [hk]; simp only [ih, eventRun]
  | value h _ ih =>
    rw [MapSer.calls, MapSer.call]
    exact hv s _ _ _ _ h (fun s => ih)
  | @entry k x n e cs es hk h _ ih =>
    rw [MapSer.calls, MapSer.call]
    rcases setKey_event (s := s) hk with ⟨n', he, hk⟩ | ⟨he, _⟩
    · cases he
      rw [hk]
      simp only
      have := hv { s with key := some n } x e cs es h (fun s => ih)
      exact this.trans (by simp only [eventRun])
    · cases he
  | badEntry hk _ ih =>
    rw [MapSer.calls, MapSer.call]
    rcases setKey_event (s := s) hk with ⟨n', he, _⟩ | ⟨_, err, hk⟩
    · cases he
    · rw [hk]; simp only [ih, eventRun]

/-- `entryAt` and `Unasked` after some past. -/
def entryAfter (past h : List MapEvent) (i : Nat) : Option (Str × Value Unit) :=
  match h[i]? with
  | some (.value v) => (waiting ((h.take i).reverse ++ past)).map (fun name => (name, v))
  | _ => none

theorem entryAfter_cons (past h : List MapEvent) (e : MapEvent) (i : Nat) : entryAfter past (e :: h) (i + 1) = entryAfter (e :: past) h i := by
  unfold entryAfter
  simp

theorem range_filterMap (past h : List MapEvent) (e : MapEvent) : (List.range (e :: h).length).filterMap (entryAfter past (e :: h)) =
    (entryAfter past (e :: h) 0).toList ++ (List.range h.length).filterMap (entryAfter (e :: past) h) := by
  rw [List.length_cons, List.range_succ_eq_map, List.filterMap_cons, List.filterMap_map]
  have : (entryAfter past (e :: h) ∘ Nat.succ) = entryAfter (e :: past) h := by
    funext i; exact entryAfter_cons past h e i
  rw [this]
  cases entryAfter past (e :: h) 0 <;> rfl

def unaskedAfter (past h : List MapEvent) (i : Nat) : Prop :=
  ((∃ v, h[i]? = some (.value v)) ∨ h[i]? = some .badValue) ∧ waiting ((h.take i).reverse ++ past) = none

theorem unasked_cons {past h : List MapEvent} {e : MapEvent} : (∃ i, unaskedAfter past (e :: h) i) ↔
    unaskedAfter past (e :: h) 0 ∨ ∃ i, unaskedAfter (e :: past) h i := by
  have hs : ∀ i, unaskedAfter past (e :: h) (i + 1) ↔ unaskedAfter (e :: past) h i := by
    intro i
    unfold unaskedAfter
    simp
  constructor
  · rintro ⟨_ | i, hi⟩
    · exact .inl hi
    · exact .inr ⟨i, (hs i).1 hi⟩
  · rintro (h | ⟨i, hi⟩)
    · exact ⟨0, h⟩
    · exact ⟨i + 1, (hs i).2 hi⟩

theorem eventRun_spec (es : List MapEvent) : ∀ past, (eventRun (waiting past) es = none ↔ ∃ i, unaskedAfter past es i) ∧
    ∀ l k, eventRun (waiting past) es = some (l, k) → l = (List.range es.length).filterMap (entryAfter past es) ∧ k = waiting (es.reverse ++ past) := by
  induction es with
  | nil =>
    intro past
    constructor
    · simp [eventRun, unaskedAfter]
    · intro l k h; simp only [eventRun, Option.some.injEq, Prod.mk.injEq] at h; simp [← h.1, ← h.2]
  | cons e es ih =>
    intro past
    obtain ⟨h1, h2⟩ := ih (e :: past)
    rw [unasked_cons]
    simp only [range_filterMap, List.reverse_cons, List.append_assoc, List.cons_append, List.nil_append]
    cases e with
    | key n =>
      rw [waiting] at h1 h2
      simp only [eventRun]
      refine ⟨?_, ?_⟩
      · rw [h1]; simp [unaskedAfter]
      · intro l k h; obtain ⟨a, b⟩ := h2 l k h; exact ⟨by rw [a]; simp [entryAfter], b⟩
    | badKey =>
      rw [waiting] at h1 h2
      simp only [eventRun]
      refine ⟨?_, ?_⟩
      · rw [h1]; simp [unaskedAfter]
      · intro l k h; obtain ⟨a, b⟩ := h2 l k h; exact ⟨by rw [a]; simp [entryAfter], b⟩
    | value v =>
      rw [waiting] at h1 h2
      cases hw : waiting past with
      | none =>
        simp only [eventRun]
        refine ⟨?_, ?_⟩
        · simp [unaskedAfter, hw]
        · intro l k h; cases h
      | some n =>
        simp only [eventRun]
        refine ⟨?_, ?_⟩
        · rw [Option.map_eq_none_iff, h1]; simp [unaskedAfter, hw]
        · intro l k h
          rw [Option.map_eq_some_iff] at h
          obtain ⟨⟨l', k'⟩, h3, h4⟩ := h
          cases h4
          obtain ⟨a, b⟩ := h2 l' k' h3
          exact ⟨by rw [a]; simp [entryAfter, hw], b⟩
    | badValue =>
      rw [waiting] at h1 h2
      cases hw : waiting past with
      | none =>
        simp only [eventRun]
        refine ⟨?_, ?_⟩
        · simp [unaskedAfter, hw]
        · intro l k h; cases h
      | some n =>
        simp only [eventRun]
        refine ⟨?_, ?_⟩
        · rw [h1]; simp [unaskedAfter, hw]
        · intro l k h; obtain ⟨a, b⟩ := h2 l k h; exact ⟨by rw [a]; simp [entryAfter], b⟩

theorem events_exist : ∀ cs : List MapCall, ∃ es, Events cs es := by
  have hk : ∀ x : Inner, (∃ n, KeyEvent x (.key n)) ∨ KeyEvent x .badKey := by
    intro x
    cases x with
    | error e => exact .inr .error
    | ok v =>
      cases h : keyOf v with
      | ok s => exact .inl ⟨s, .good (keyOf_ok.1 h)⟩
      | error e => exact .inr (.bad (keyOf_error.1 h).2)
  have hv : ∀ x : Inner, ∃ e, ValueEvent x e := by
    intro x
    cases x with
    | error e => exact ⟨_, .error⟩
    | ok v => exact ⟨_, .good⟩
  intro cs
  induction cs with
  | nil => exact ⟨_, .nil⟩
  | cons c cs ih =>
    obtain ⟨es, ih⟩ := ih
    cases c with
    | key x => rcases hk x with ⟨n, h⟩ | h <;> exact ⟨_, .key h ih⟩
    | value x => obtain ⟨e, h⟩ := hv x; exact ⟨_, .value h ih⟩
    | entry k x =>
      rcases hk k with ⟨n, h⟩ | h
      · obtain ⟨e, h'⟩ := hv x; exact ⟨_, .entry h h' ih⟩
      · exact ⟨_, .badEntry h ih⟩


/-! ### Calls that stop at the first error -/

theorem seq_callsQ (xs : List Ser) : ∀ s : SeqSer, s.callsQ (xs.map Ser.toValue) =
    (match toValues xs with
    | .error e => .error e
    | .ok vs => .ok { s with values := s.values ++ vs }) := by
  induction xs with
  | nil => intro s; simp [SeqSer.callsQ, toValues]
  | cons x xs ih =>
    intro s
    rw [List.map_cons, SeqSer.callsQ, toValues]
    cases hx : x.toValue with
    | error e => rfl
    | ok v =>
      simp only [SeqSer.element, ih, bind, Except.bind]
      cases toValues xs <;> simp

theorem fields_callsQ (xs : List (Str × Ser)) : ∀ s : MapSer, s.fieldsQ (xs.map (fun x => (x.1, x.2.toValue))) =
    (match toFields xs with
    | .error e => .error e
    | .ok vs => .ok { s with values := s.values ++ vs }) := by
  induction xs with
  | nil => intro s; simp [MapSer.fieldsQ, toFields]
  | cons x xs ih =>
    obtain ⟨k, x⟩ := x
    intro s
    rw [List.map_cons, MapSer.fieldsQ, toFields]
    cases hx : x.toValue with
    | error e => rfl
    | ok v =>
      simp only [MapSer.field, ih, bind, Except.bind]
      cases toFields xs <;> simp

theorem entries_callsQ (xs : List (Ser × Ser)) : ∀ s : MapSer, s.key = none →
    s.callsQ (xs.map (fun x => .entry x.1.toValue x.2.toValue)) =
    some (match toEntries xs with
    | .error e => .error e
    | .ok vs => .ok { s with values := s.values ++ vs }) := by
  induction xs with
  | nil => intro s _; simp [MapSer.callsQ, toEntries]
  | cons x xs ih =>
    obtain ⟨k, x⟩ := x
    intro s hs
    rw [List.map_cons, MapSer.callsQ, toEntries, MapSer.call]
    cases hk : k.toValue with
    | error e => rfl
    | ok kv =>
      simp only [MapSer.setKey, bind, Except.bind]
      cases hkk : keyOf kv with
      | error e => rfl
      | ok key =>
        cases hx : x.toValue with
        | error e => rfl
        | ok v =>
          simp only [MapSer.value, MapSer.field]
          rw [ih _ rfl]
          cases toEntries xs <;> simp [hs]

theorem keyvalues_callsQ (xs : List (Ser × Ser)) : ∀ s : MapSer,
    s.callsQ (xs.flatMap (fun x => [.key x.1.toValue, .value x.2.toValue])) = s.callsQ (xs.map (fun x => .entry x.1.toValue x.2.toValue)) := by
  induction xs with
  | nil => intro s; rfl
  | cons x xs ih =>
    obtain ⟨k, x⟩ := x
    intro s
    simp only [List.flatMap_cons, List.map_cons, List.cons_append, List.nil_append, MapSer.callsQ, MapSer.call]
    generalize s.setKey k.toValue = p
    obtain ⟨r, s1⟩ := p
    cases r with
    | error e => rfl
    | ok u =>
      simp only
      cases hv : s1.value x.toValue with
      | none => rfl
      | some q =>
        obtain ⟨r, s2⟩ := q
        cases r with
        | error e => rfl
        | ok u => exact ih s2

theorem seq_calls (xs : List Inner) : ∀ s : SeqSer, s.calls xs = { s with values := s.values ++ xs.filterMap Except.toOption } := by
  induction xs with
  | nil => intro s; simp [SeqSer.calls]
  | cons x xs ih =>
    intro s
    cases x with
    | error e => simp only [SeqSer.calls, SeqSer.element, ih]; rfl
    | ok v => simp [SeqSer.calls, SeqSer.element, ih, Except.toOption]

theorem map_fields (xs : List (Str × Inner)) : ∀ s : MapSer, s.fields xs =
    { s with values := s.values ++ xs.filterMap (fun x => x.2.toOption.map (fun v => (x.1, v))) } := by
  induction xs with
  | nil => intro s; simp [MapSer.fields]
  | cons x xs ih =>
    obtain ⟨k, x⟩ := x
    intro s
    cases x with
    | error e => simp [MapSer.fields, MapSer.field, ih, Except.toOption]
    | ok v => simp [MapSer.fields, MapSer.field, ih, Except.toOption]

/-- The key that is waiting is the one of the specification. -/
theorem events_snoc {cs : List MapCall} {es : List MapEvent} {s : MapSer} (h : Events cs es) (hs : MapSer.newComposite.calls cs = some s) :
    s.key = waiting es.reverse := by
  rw [calls_events h] at hs
  obtain ⟨⟨l, k⟩, h1, h2⟩ := Option.map_eq_some_iff.1 hs
  have := (eventRun_spec es []).2 l k h1
  rw [← h2]; simpa using this.2

end SV
