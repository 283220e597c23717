import Verif.Proofs.SerCalls
/-
C66: histories of calls of the compound serializers.
-/
namespace SV

/-- Every history of calls of a map serializer stands for events, so the theorems below are about all histories. -/
theorem C66_every_history (cs : List MapCall) : ∃ es, Events cs es := events_exist cs

/-- A history of calls, whatever the calls return and whether or not the caller minds: it panics exactly when there is a `serialize_value` that no key waits for. -/
theorem C66_map_panics (cs : List MapCall) (es : List MapEvent) (h : Events cs es) (name : Option Str) :
    (MapSer.mk name [] none).calls cs = none ↔ ∃ i, Unasked es i := by
  rw [calls_events h, Option.map_eq_none_iff]
  have := (eventRun_spec es []).1
  simpa [unaskedAfter, Unasked, waiting] using this

/-- Otherwise the value that comes out has one field for each value that could be serialized, in the order of the calls, under the latest good key before it, and no other field. -/
theorem C66_map (cs : List MapCall) (es : List MapEvent) (h : Events cs es) :
    (∀ s, MapSer.newComposite.calls cs = some s → s.end = .namedComposite ((List.range es.length).filterMap (entryAt es))) ∧
    ∀ name s, (MapSer.newVariant name).calls cs = some s → s.end = .variant name (.named ((List.range es.length).filterMap (entryAt es))) := by
  have key : ∀ (vn : Option Str) (s : MapSer), (MapSer.mk vn [] none).calls cs = some s →
      s.variantName = vn ∧ s.values = (List.range es.length).filterMap (entryAt es) := by
    intro vn s hs
    rw [calls_events h] at hs
    obtain ⟨⟨l, k⟩, h1, h2⟩ := Option.map_eq_some_iff.1 hs
    have := ((eventRun_spec es []).2 l k h1).1
    rw [← h2]
    refine ⟨rfl, ?_⟩
    simp only [List.nil_append, this]
    congr 1
    funext i
    unfold entryAfter entryAt
    rw [List.append_nil]
    rfl
  constructor
  · intro s hs
    obtain ⟨h1, h2⟩ := key none s hs
    rw [MapSer.end, h1, h2]
  · intro name s hs
    obtain ⟨h1, h2⟩ := key (some name) s hs
    rw [MapSer.end, h1, h2]

/-- What each call returns, at any point of any history: a key is taken exactly when it is a string or a character, a key that is not leaves the serializer as it was; a value
returns its own error, and uses up the key that was waiting even if it fails. -/
theorem C66_returns (s : MapSer) (x : Inner) :
    (∀ v name, x = .ok v → KeyName v name → s.call (.key x) = some (.ok (), { s with key := some name })) ∧
    (∀ v, x = .ok v → (∀ name, ¬ KeyName v name) → s.call (.key x) = some (.error .mapKey, s)) ∧
    (∀ e, x = .error e → s.call (.key x) = some (.error e, s)) ∧
    (s.key = none → s.call (.value x) = none) ∧
    (∀ name v, s.key = some name → x = .ok v → s.call (.value x) = some (.ok (), { s with values := s.values ++ [(name, v)], key := none })) ∧
    (∀ name e, s.key = some name → x = .error e → s.call (.value x) = some (.error e, { s with key := none })) := by
  refine ⟨?_, ?_, ?_, ?_, ?_, ?_⟩
  · rintro v name rfl h
    simp only [MapSer.call, MapSer.setKey, keyOf_ok.2 h]
  · rintro v rfl h
    have : keyOf v = .error .mapKey := keyOf_error.2 ⟨rfl, h⟩
    simp only [MapSer.call, MapSer.setKey, this]
  · rintro e rfl; rfl
  · intro h; simp only [MapSer.call, MapSer.value, h]
  · rintro name v h rfl; simp only [MapSer.call, MapSer.value, MapSer.field, h]
  · rintro name e h rfl; simp only [MapSer.call, MapSer.value, MapSer.field, h]

/-- An entry is a key and then, if the key was taken, a value. -/
theorem C66_entry (s : MapSer) (k x : Inner) :
    (∀ e s', s.call (.key k) = some (.error e, s') → s.call (.entry k x) = some (.error e, s')) ∧
    ∀ s', s.call (.key k) = some (.ok (), s') → s.call (.entry k x) = s'.call (.value x) := by
  constructor
  · intro e s' h
    have : s.setKey k = (.error e, s') := Option.some.inj h
    simp only [MapSer.call, this]
  · intro s' h
    have : s.setKey k = (.ok (), s') := Option.some.inj h
    simp only [MapSer.call, this]

/-- An entry never panics. -/
theorem C66_entries_never_panic (s : MapSer) (es : List (Inner × Inner)) : s.calls (es.map (fun e => .entry e.1 e.2)) ≠ none := by
  induction es generalizing s with
  | nil => simp [MapSer.calls]
  | cons e es ih =>
    obtain ⟨k, x⟩ := e
    rw [List.map_cons, MapSer.calls]
    have : ∃ r s', s.call (.entry k x) = some (r, s') := by
      simp only [MapSer.call]
      cases k with
      | error e => exact ⟨_, _, rfl⟩
      | ok v =>
        simp only [MapSer.setKey]
        cases keyOf v with
        | error e => exact ⟨_, _, rfl⟩
        | ok n => exact ⟨_, _, rfl⟩
    obtain ⟨r, s', h⟩ := this
    rw [h]
    exact ih s'

/-- Sequences, tuples, tuple structs and tuple variants: what comes out has the elements that could be serialized, in order, whatever became of the others. -/
theorem C66_seq (xs : List Inner) :
    (SeqSer.newComposite.calls xs).end = .unnamedComposite (xs.filterMap Except.toOption) ∧
    ∀ name, ((SeqSer.newVariant name).calls xs).end = .variant name (.unnamed (xs.filterMap Except.toOption)) := by
  constructor
  · rw [seq_calls]; simp [SeqSer.end, SeqSer.newComposite]
  · intro name; rw [seq_calls]; simp [SeqSer.end, SeqSer.newVariant]

/-- Structs and struct variants: the fields that could be serialized, in order, with their names. -/
theorem C66_struct (xs : List (Str × Inner)) :
    (MapSer.newComposite.fields xs).end = .namedComposite (xs.filterMap (fun x => x.2.toOption.map (fun v => (x.1, v)))) ∧
    ∀ name, ((MapSer.newVariant name).fields xs).end = .variant name (.named (xs.filterMap (fun x => x.2.toOption.map (fun v => (x.1, v))))) := by
  constructor
  · rw [map_fields]; simp [MapSer.end, MapSer.newComposite]
  · intro name; rw [map_fields]; simp [MapSer.end, MapSer.newVariant]

/-- Elements and fields return the error of what they are given, and are fine without one. -/
theorem C66_returns_seq (s : SeqSer) (m : MapSer) (k : Str) (x : Inner) :
    (s.element x).1 = x.map (fun _ => ()) ∧ (m.field k x).1 = x.map (fun _ => ()) := by
  cases x <;> exact ⟨rfl, rfl⟩

/-- `to_value` of what keeps to serde's protocol is these calls up to the first error, then `end`. Keys and values in turn come to the same as entries, and there is no panic. -/
theorem C66_to_value :
    (∀ xs, (Ser.seq xs).toValue = (SeqSer.newComposite.callsQ (xs.map Ser.toValue)).map SeqSer.end) ∧
    (∀ xs, (Ser.tuple xs).toValue = (SeqSer.newComposite.callsQ (xs.map Ser.toValue)).map SeqSer.end) ∧
    (∀ xs, (Ser.tupleStruct xs).toValue = (SeqSer.newComposite.callsQ (xs.map Ser.toValue)).map SeqSer.end) ∧
    (∀ n xs, (Ser.tupleVariant n xs).toValue = ((SeqSer.newVariant n).callsQ (xs.map Ser.toValue)).map SeqSer.end) ∧
    (∀ fs, (Ser.struct fs).toValue = (MapSer.newComposite.fieldsQ (fs.map (fun x => (x.1, x.2.toValue)))).map MapSer.end) ∧
    (∀ n fs, (Ser.structVariant n fs).toValue = ((MapSer.newVariant n).fieldsQ (fs.map (fun x => (x.1, x.2.toValue)))).map MapSer.end) ∧
    (∀ es, some (Ser.map es).toValue = (MapSer.newComposite.callsQ (es.map (fun x => .entry x.1.toValue x.2.toValue))).map (·.map MapSer.end)) ∧
    (∀ es, some (Ser.map es).toValue =
      (MapSer.newComposite.callsQ (es.flatMap (fun x => [.key x.1.toValue, .value x.2.toValue]))).map (·.map MapSer.end)) := by
  have hmap : ∀ es, some (Ser.map es).toValue = (MapSer.newComposite.callsQ (es.map (fun x => .entry x.1.toValue x.2.toValue))).map (·.map MapSer.end) := by
    intro es
    rw [entries_callsQ es _ rfl, Ser.toValue]
    cases toEntries es <;> rfl
  refine ⟨?_, ?_, ?_, ?_, ?_, ?_, hmap, fun es => ?_⟩
  · intro xs; rw [seq_callsQ, Ser.toValue]; cases toValues xs <;> rfl
  · intro xs; rw [seq_callsQ, Ser.toValue]; cases toValues xs <;> rfl
  · intro xs; rw [seq_callsQ, Ser.toValue]; cases toValues xs <;> rfl
  · intro n xs; rw [seq_callsQ, Ser.toValue]; cases toValues xs <;> rfl
  · intro xs; rw [fields_callsQ, Ser.toValue]; cases toFields xs <;> rfl
  · intro n xs; rw [fields_callsQ, Ser.toValue]; cases toFields xs <;> rfl
  · rw [keyvalues_callsQ]; exact hmap es

/-! ### Cases -/

/-- A key, a key, a bad key, a value, an entry whose value fails, an entry, a key that is left over. -/
def historyExample : List MapCall :=
  [.key (.ok (.string ['a'])), .key (.ok (.char 'b')), .key (.ok (.bool true)), .value (.ok (.bool true)), .entry (.ok (.string ['c'])) (.error .floats),
   .entry (.ok (.string ['b'])) (.ok (.bool false)), .key (.ok (.string ['z']))]

example : Events historyExample [.key ['a'], .key ['b'], .badKey, .value (.bool true), .key ['c'], .badValue, .key ['b'], .value (.bool false), .key ['z']] :=
  .key (.good (.string _)) (.key (.good (.char _)) (.key (.bad (fun s h => by cases h)) (.value .good (.entry (.good (.string _)) .error
    (.entry (.good (.string _)) .good (.key (.good (.string _)) .nil))))))

/-- Two fields of the same name come out. -/
example : (MapSer.newComposite.calls historyExample).map MapSer.end = some (.namedComposite [(['b'], .bool true), (['b'], .bool false)]) := rfl

/-- A key is used up by a value that fails: the value after it panics. -/
example : MapSer.newComposite.calls [.key (.ok (.string ['a'])), .value (.error .floats), .value (.ok (.bool true))] = none := rfl

example : Unasked [.key ['a'], .badValue, .value (.bool true)] 2 := ⟨.inl ⟨_, rfl⟩, rfl⟩

example : (SeqSer.newComposite.calls [.ok (.bool true), .error .floats, .ok (.bool false)]).end = .unnamedComposite [.bool true, .bool false] := rfl

example : (MapSer.newComposite.fields [(['a'], .ok (.bool true)), (['b'], .error .floats)]).end = .namedComposite [(['a'], .bool true)] := rfl

end SV
