import Verif.Proofs.SerdeTyped
/-
Proofs about values that go through a self-describing format.
-/
namespace SV

variable {T : Type}

/-- What a deserializer says to a hint that asks for plain data. -/
theorem plays_str {d : Der} {s : Str} (h : Plays d (.str s)) {a : Hint} (ha : a.Plain) : d.ask a = .str s := by
  cases h with | str h => exact h a ha

theorem plays_bool {d : Der} {b : Bool} (h : Plays d (.bool b)) {a : Hint} (ha : a.Plain) : d.ask a = .bool b := by
  cases h with | bool h => exact h a ha

theorem deString_plays {d : Der} {s : Str} (h : Plays d (.str s)) : deString d = some s := by
  simp only [deString, Der.visit, plays_str h (a := .str) trivial]

theorem deBool_plays {d : Der} {b : Bool} (h : Plays d (.bool b)) : deBool d = some b := by
  simp only [deBool, Der.visit, plays_bool h (a := .bool) trivial]

theorem deValue_ask (d : Der) (x : ValueDef Unit) (h : deDef (d.ask .any) = some x) : deValue d = some (.mk x ()) := by
  cases d with | mk f => rw [deValue]; simp only [Der.ask] at h; rw [h]

theorem plays_seq {d : Der} {xs : List Ser} (h : Plays d (.seq xs)) : ∃ closed ds, (∀ a : Hint, a.Plain → d.ask a = .seq closed ds) ∧ List.Forall₂ Plays ds xs := by
  cases h with
  | seq h len sub => exact ⟨_, _, h, pointwise_forall₂.1 ⟨len, sub⟩⟩

theorem plays_tuple {d : Der} {xs : List Ser} (h : Plays d (.tuple xs)) : ∃ closed ds, (∀ a : Hint, a.Plain → d.ask a = .seq closed ds) ∧ List.Forall₂ Plays ds xs := by
  cases h with
  | tuple h len sub => exact ⟨_, _, h, pointwise_forall₂.1 ⟨len, sub⟩⟩

theorem plays_map {d : Der} {xs : List (Ser × Ser)} (h : Plays d (.map xs)) :
    ∃ closed ds, (∀ a : Hint, a.Plain → d.ask a = .map closed ds) ∧ List.Forall₂ (fun e x => Plays e.1 x.1 ∧ Plays e.2 x.2) ds xs := by
  cases h with
  | map h len key sub => exact ⟨_, _, h, pointwise_forall₂.1 ⟨len, fun i e x h1 h2 => ⟨key i e x h1 h2, sub i e x h1 h2⟩⟩⟩

theorem deBools_plays {d : Der} {bs : List Bool} (h : Plays d (.seq (bs.map .bool))) : deVec deBool d = some bs := by
  obtain ⟨closed, ds, h1, h2⟩ := plays_seq h
  simp only [deVec, Der.visit, h1 .seq trivial]
  rw [allOf_iff]
  rw [List.forall₂_map_right_iff] at h2
  exact h2.imp fun a b => deBool_plays

theorem bits_plays {d : Der} {bs : List Bool} (h : Plays d (serializeBits bs)) : deValue d = some (.mk (.bitSequence bs) ()) := by
  obtain ⟨closed, ds, h1, h2⟩ := plays_map h
  apply deValue_ask
  rw [h1 .any trivial]
  cases h2 with
  | cons h3 h4 =>
    cases h4
    next e =>
    obtain ⟨k, x⟩ := e
    rw [deDef, deString_plays h3.1]
    simp only [if_true]
    rw [deBools_plays h3.2]
    simp

/-- The elements of a list come back. -/
theorem vals_plays {vs : List (Value T)} (ih : ∀ v ∈ vs, ∀ d, Plays d v.serialize → ∃ w, deValue d = some w ∧ Restores v w) {ds : List Der}
    (h : List.Forall₂ Plays ds (vs.map Value.serialize)) : ∃ ws, deValues ds = some ws ∧ List.Forall₂ Restores vs ws := by
  induction vs generalizing ds with
  | nil => cases h; exact ⟨[], rfl, .nil⟩
  | cons v vs ih2 =>
    cases h with
    | cons h1 h2 =>
      obtain ⟨w, hw, hr⟩ := ih v (by simp) _ h1
      obtain ⟨ws, hws, hrs⟩ := ih2 (fun u hu => ih u (by simp [hu])) h2
      exact ⟨w :: ws, by rw [deValues, hw, hws], .cons hr hrs⟩

theorem fields_plays {fs : List (Str × Value T)} (ih : ∀ p ∈ fs, ∀ d, Plays d p.2.serialize → ∃ w, deValue d = some w ∧ Restores p.2 w) {ds : List (Der × Der)}
    (h : List.Forall₂ (fun e x => Plays e.1 x.1 ∧ Plays e.2 x.2) ds (fs.map (fun p => (Ser.str p.1, p.2.serialize)))) :
    ∃ gs, deEntries ds = some gs ∧ List.Forall₂ (fun x y => x.1 = y.1 ∧ Restores x.2 y.2) fs gs := by
  induction fs generalizing ds with
  | nil => cases h; exact ⟨[], rfl, .nil⟩
  | cons v vs ih2 =>
    cases h with
    | @cons e _ ds _ h1 h2 =>
      obtain ⟨w, hw, hr⟩ := ih v (by simp) _ h1.2
      obtain ⟨ws, hws, hrs⟩ := ih2 (fun u hu => ih u (by simp [hu])) h2
      obtain ⟨k, x⟩ := e
      exact ⟨(v.1, w) :: ws, by rw [deEntries, deString_plays h1.1, hw, hws], .cons ⟨rfl, hr⟩ hrs⟩

theorem bytes_plays {bs : List UInt8} {ds : List Der} (h : List.Forall₂ Plays ds (bs.map (fun x => Ser.num (.ofU8 x)))) :
    ∃ ws, deValues ds = some ws ∧ List.Forall₂ (fun (x : UInt8) w => IsNumber w x.toNat) bs ws := by
  induction bs generalizing ds with
  | nil => cases h; exact ⟨[], rfl, .nil⟩
  | cons b bs ih =>
    cases h with
    | @cons d _ ds _ h1 h2 =>
      obtain ⟨ws, hws, hrs⟩ := ih h2
      cases h1 with
      | @num _ _ m same h =>
        refine ⟨.mk (.primitive m.toPrim) () :: ws, ?_, .cons ?_ hrs⟩
        · rw [deValues, deValue_ask d (.primitive m.toPrim) (by rw [h .any trivial, deDef]), hws]
        · have hr := repNum_iff.2 (rfl : m.toPrim = _)
          revert hr
          generalize m.toPrim = p
          intro hr
          cases hr with
          | unsigned s hs => exact congrArg some (hs.trans same)
          | signed s hs => exact congrArg some (hs.trans same)

theorem number_plays {v : Value T} {n : Int} (hv : v.number? = some n) {m : Num} (hm : m.val = n) {d : Der} (h : Plays d (.num m)) :
    ∃ w, deValue d = some w ∧ Restores v w := by
  cases h with
  | @num _ _ k same h =>
    refine ⟨.mk (.primitive k.toPrim) (), deValue_ask d _ (by rw [h .any trivial, deDef]), .number hv ?_⟩
    have hr := repNum_iff.2 (rfl : k.toPrim = _)
    revert hr
    generalize k.toPrim = p
    intro hr
    cases hr with
    | unsigned s hs => exact congrArg some ((hs.trans same).trans hm)
    | signed s hs => exact congrArg some ((hs.trans same).trans hm)

theorem deComposite_named {d : Der} {closed : Bool} {ds : List (Der × Der)} {gs : List (Str × Value Unit)} (h : d.ask .any = .map closed ds) (hg : deEntries ds = some gs) :
    deComposite d = some (.named gs) := by
  cases d with | mk f =>
  rw [deComposite]
  simp only [Der.ask] at h
  rw [h, deComp, hg]

theorem deComposite_unnamed {d : Der} {closed : Bool} {ds : List Der} {gs : List (Value Unit)} (h : d.ask .any = .seq closed ds) (hg : deValues ds = some gs) :
    deComposite d = some (.unnamed gs) := by
  cases d with | mk f =>
  rw [deComposite]
  simp only [Der.ask] at h
  rw [h, deComp, hg]

theorem key_ne_bit : ("name".toList : Str) ≠ bitIdent := by decide

theorem variant_form {n : Str} {c : T} {f : Composite T} {d : Der} {ser : Ser} (hs : f.serialize = ser)
    (ih : ∀ e, Plays e ser → ∃ w, deValue e = some w ∧ Restores (.mk (.composite f) c) w)
    (h : Plays d (Variant.mk n f).serialize) : ∃ w, deValue d = some w ∧ Restores (.mk (.variant (.mk n f)) c) w := by
  rw [Variant.serialize, hs] at h
  obtain ⟨closed, ds, h1, h2⟩ := plays_map h
  cases h2 with
  | @cons e1 _ _ _ h3 h4 =>
    cases h4 with
    | @cons e2 _ _ _ h5 h6 =>
      cases h6
      obtain ⟨k1, x1⟩ := e1
      obtain ⟨k2, x2⟩ := e2
      obtain ⟨w, hw, hr⟩ := ih x2 h5.2
      refine ⟨_, deValue_ask d (.composite (.named [("name".toList, .mk (.primitive (.string n)) ()), ("values".toList, w)])) ?_, .variant hr⟩
      have hx1 : deValue x1 = some (.mk (.primitive (.string n)) ()) := deValue_ask _ _ (by rw [plays_str h3.2 (a := .any) trivial, deDef])
      rw [h1 .any trivial, deDef, deString_plays h3.1]
      simp only
      rw [if_neg key_ne_bit, hx1, deEntries, deString_plays h5.1, hw, deEntries]

theorem plays_restores (v : Value T) : NoBitName v → ∀ d, Plays d v.serialize → ∃ w, deValue d = some w ∧ Restores v w := by
  have named : ∀ (fs : List (Str × Value T)) (c : T), (∀ p ∈ fs, NoBitName p.2 → ∀ d, Plays d p.2.serialize → ∃ w, deValue d = some w ∧ Restores p.2 w) →
      NoBitName (.mk (.composite (.named fs)) c) → ∀ d, Plays d (Composite.named fs).serialize → ∃ w, deValue d = some w ∧ Restores (.mk (.composite (.named fs)) c) w := by
    intro fs c ih hn d h
    cases hn with
    | named first sub =>
      rw [Composite.serialize, serializeFields_eq] at h
      obtain ⟨closed, ds, h1, h2⟩ := plays_map h
      obtain ⟨gs, hg, hr⟩ := fields_plays (fun p hp => ih p hp (sub p hp)) h2
      obtain ⟨hr1, hr2⟩ := (forall₂_names (R := fun (x : Value T) y => Restores x y)).1 hr
      refine ⟨.mk (.composite (.named gs)) (), deValue_ask d _ ?_, .named hr1 hr2⟩
      rw [h1 .any trivial]
      cases fs with
      | nil => cases h2; cases hr; rw [deDef]
      | cons p fs =>
        cases h2 with
        | @cons e _ ds _ h3 h4 =>
          obtain ⟨k, x⟩ := e
          rw [deDef, deString_plays h3.1]
          simp only
          rw [if_neg (show p.1 ≠ bitIdent from first p rfl)]
          rw [deEntries, deString_plays h3.1] at hg
          simp only at hg
          split at hg
          · cases hg
          · split at hg
            · cases hg
            · cases hg
              rfl
  have unnamed : ∀ (vs : List (Value T)) (c : T), (∀ p ∈ vs, NoBitName p → ∀ d, Plays d p.serialize → ∃ w, deValue d = some w ∧ Restores p w) →
      NoBitName (.mk (.composite (.unnamed vs)) c) → ∀ d, Plays d (Composite.unnamed vs).serialize → ∃ w, deValue d = some w ∧ Restores (.mk (.composite (.unnamed vs)) c) w := by
    intro vs c ih hn d h
    cases hn with
    | unnamed sub =>
      rw [Composite.serialize, serializeVals_eq] at h
      obtain ⟨closed, ds, h1, h2⟩ := plays_seq h
      obtain ⟨gs, hg, hr⟩ := vals_plays (fun p hp => ih p hp (sub p hp)) h2
      obtain ⟨hr1, hr2⟩ := pointwise_forall₂.2 hr
      refine ⟨.mk (.composite (.unnamed gs)) (), deValue_ask d _ ?_, .unnamed hr1 hr2⟩
      rw [h1 .any trivial, deDef, hg]
  induction v using Value.ind with
  | named fs c ih => exact named fs c ih
  | unnamed vs c ih => exact unnamed vs c ih
  | vnamed n fs c ih =>
    intro hn d h
    cases hn with
    | @variant _ _ _ d' hn => 
      have : NoBitName (.mk (.composite (.named fs)) c) := by cases hn with | named a b => exact .named a b
      exact variant_form rfl (fun e he => named fs c ih this e he) h
  | vunnamed n vs c ih =>
    intro hn d h
    cases hn with
    | variant hn =>
      have : NoBitName (.mk (.composite (.unnamed vs)) c) := by cases hn with | unnamed a => exact .unnamed a
      exact variant_form rfl (fun e he => unnamed vs c ih this e he) h
  | bits b c => intro _ d h; exact ⟨_, bits_plays h, .bits⟩
  | prim p c =>
    intro _ d h
    change Plays d p.serialize at h
    cases p with
    | bool b => exact ⟨_, deValue_ask d _ (by rw [plays_bool h (a := .any) trivial, deDef]), .bool⟩
    | char x =>
      cases h with
      | char h => exact ⟨_, deValue_ask d _ (by rw [h .any trivial, deDef]), .char⟩
      | charStr h => exact ⟨_, deValue_ask d _ (by rw [h .any trivial, deDef]), .charStr⟩
    | string s => exact ⟨_, deValue_ask d _ (by rw [plays_str h (a := .any) trivial, deDef]), .string⟩
    | u128 n =>
      obtain ⟨m, hm, hv, -⟩ := serialize_u128 n
      rw [hm] at h
      exact number_plays rfl hv h
    | i128 n =>
      obtain ⟨m, hm, hv, -⟩ := serialize_i128 n
      rw [hm] at h
      exact number_plays rfl hv h
    | u256 b =>
      obtain ⟨closed, ds, h1, h2⟩ := plays_tuple h
      obtain ⟨ws, hw, hr⟩ := bytes_plays h2
      obtain ⟨hl, hs⟩ := pointwise_forall₂.2 hr
      exact ⟨_, deValue_ask d (.composite (.unnamed ws)) (by rw [h1 .any trivial, deDef, hw]), .u256 hl.symm hs⟩
    | i256 b =>
      obtain ⟨closed, ds, h1, h2⟩ := plays_tuple h
      obtain ⟨ws, hw, hr⟩ := bytes_plays h2
      obtain ⟨hl, hs⟩ := pointwise_forall₂.2 hr
      exact ⟨_, deValue_ask d (.composite (.unnamed ws)) (by rw [h1 .any trivial, deDef, hw]), .i256 hl.symm hs⟩

/-! ### Variants as maps -/

/-- The fields of a variant (or any composite), in a format, read as a composite. -/
theorem composite_plays {f : Composite T} (c : T) (hn : ∀ v ∈ f.vals, NoBitName v) {d : Der} (h : Plays d f.serialize) :
    ∃ g, deComposite d = some g ∧ Restores (.mk (.composite f) c) (.mk (.composite g) ()) := by
  cases f with
  | named fs =>
    rw [Composite.serialize, serializeFields_eq] at h
    obtain ⟨closed, ds, h1, h2⟩ := plays_map h
    obtain ⟨gs, hg, hr⟩ := fields_plays (fun p hp => plays_restores p.2 (hn p.2 (List.mem_map_of_mem hp))) h2
    obtain ⟨hr1, hr2⟩ := (forall₂_names (R := fun (x : Value T) y => Restores x y)).1 hr
    exact ⟨_, deComposite_named (h1 .any trivial) hg, .named hr1 hr2⟩
  | unnamed vs =>
    rw [Composite.serialize, serializeVals_eq] at h
    obtain ⟨closed, ds, h1, h2⟩ := plays_seq h
    obtain ⟨gs, hg, hr⟩ := vals_plays (fun p hp => plays_restores p (hn p hp)) h2
    obtain ⟨hr1, hr2⟩ := pointwise_forall₂.2 hr
    exact ⟨_, deComposite_unnamed (h1 .any trivial) hg, .unnamed hr1 hr2⟩

theorem lastEntry_cons {l : List (Der × Der)} {e : Der × Der} {key : Str} {x : Der} :
    LastEntry (e :: l) key x ↔ LastEntry l key x ∨ ((∀ p ∈ l, deString p.1 ≠ some key) ∧ deString e.1 = some key ∧ e.2 = x) := by
  constructor
  · rintro ⟨pre, k, post, h1, h2, h3⟩
    cases pre with
    | nil => cases h1; exact .inr ⟨h3, h2, rfl⟩
    | cons a pre =>
      rw [List.cons_append, List.cons.injEq] at h1
      exact .inl ⟨pre, k, post, h1.2, h2, h3⟩
  · rintro (⟨pre, k, post, h1, h2, h3⟩ | ⟨h1, h2, h3⟩)
    · exact ⟨e :: pre, k, post, by rw [h1]; rfl, h2, h3⟩
    · exact ⟨[], e.1, l, by rw [← h3]; rfl, h2, h1⟩

theorem name_ne_values : ("name".toList : Str) ≠ "values".toList := by decide

theorem variantLoop_iff {l : List (Der × Der)} {a : Option Str} {b : Option (Composite Unit)} {n : Option Str} {c : Option (Composite Unit)} :
    variantLoop l a b = some (n, c) ↔ (∀ p ∈ l, GoodEntry p) ∧
      ((∃ x, LastEntry l "name".toList x ∧ deString x = n ∧ n.isSome) ∨ ((∀ p ∈ l, deString p.1 ≠ some "name".toList) ∧ n = a)) ∧
      ((∃ x, LastEntry l "values".toList x ∧ deComposite x = c ∧ c.isSome) ∨ ((∀ p ∈ l, deString p.1 ≠ some "values".toList) ∧ c = b)) := by
  induction l generalizing a b with
  | nil =>
    rw [variantLoop]
    simp only [Option.some.injEq, Prod.mk.injEq, List.not_mem_nil, false_implies, implies_true, true_and]
    have h0 : ∀ key x, ¬ LastEntry [] key x := by
      rintro key x ⟨pre, k, post, h, -⟩
      cases pre <;> cases h
    simp only [h0, false_and, exists_false, false_or]
    constructor
    · rintro ⟨rfl, rfl⟩; exact ⟨rfl, rfl⟩
    · rintro ⟨rfl, rfl⟩; exact ⟨rfl, rfl⟩
  | cons e l ih =>
    obtain ⟨k, x⟩ := e
    rw [variantLoop]
    cases hk : deString k with
    | none =>
      constructor
      · intro h; cases h
      · rintro ⟨h, -⟩
        rcases h (k, x) (by simp) with ⟨h1, -⟩ | ⟨h1, -⟩ <;> rw [hk] at h1 <;> cases h1
    | some key =>
      simp only
      by_cases h1 : key = "name".toList
      · subst h1
        rw [if_pos rfl]
        cases hx : deString x with
        | none =>
          constructor
          · intro h; cases h
          · rintro ⟨h, -⟩
            rcases h (k, x) (by simp) with ⟨-, m, h2⟩ | ⟨h1, -⟩
            · rw [hx] at h2; cases h2
            · rw [hk] at h1; exact absurd (Option.some.inj h1) name_ne_values
        | some m =>
          simp only
          rw [ih]
          simp only [List.forall_mem_cons, lastEntry_cons, hk]
          have hg : GoodEntry (k, x) := .inl ⟨hk, m, hx⟩
          refine and_congr (by simp [hg]) (and_congr ?_ ?_)
          · simp only [ne_eq, not_true_eq_false, false_and, or_false, true_and]
            constructor
            · rintro (⟨y, h1, h2, h3⟩ | ⟨h1, rfl⟩)
              · exact ⟨y, .inl h1, h2, h3⟩
              · exact ⟨x, .inr ⟨h1, rfl⟩, hx, rfl⟩
            · rintro ⟨y, h1 | ⟨h1, rfl⟩, h2, h3⟩
              · exact .inl ⟨y, h1, h2, h3⟩
              · exact .inr ⟨h1, by rw [← h2, hx]⟩
          · have : (some "name".toList : Option Str) = some "values".toList ↔ False := ⟨fun h => name_ne_values (Option.some.inj h), False.elim⟩
            simp only [ne_eq, this, not_false_eq_true, true_and, false_and, and_false, or_false]
      · rw [if_neg h1]
        by_cases h2 : key = "values".toList
        · subst h2
          rw [if_pos rfl]
          cases hx : deComposite x with
          | none =>
            constructor
            · intro h; cases h
            · rintro ⟨h, -⟩
              rcases h (k, x) (by simp) with ⟨h2, -⟩ | ⟨-, m, h2⟩
              · rw [hk] at h2; exact absurd (Option.some.inj h2).symm name_ne_values
              · rw [hx] at h2; cases h2
          | some m =>
            simp only
            rw [ih]
            simp only [List.forall_mem_cons, lastEntry_cons, hk]
            have hg : GoodEntry (k, x) := .inr ⟨hk, m, hx⟩
            refine and_congr (by simp [hg]) (and_congr ?_ ?_)
            · have : (some "values".toList : Option Str) = some "name".toList ↔ False := ⟨fun h => h1 (Option.some.inj h), False.elim⟩
              simp only [ne_eq, this, not_false_eq_true, true_and, false_and, and_false, or_false]
            · simp only [ne_eq, not_true_eq_false, false_and, or_false, true_and]
              constructor
              · rintro (⟨y, h1, h2, h3⟩ | ⟨h1, rfl⟩)
                · exact ⟨y, .inl h1, h2, h3⟩
                · exact ⟨x, .inr ⟨h1, rfl⟩, hx, rfl⟩
              · rintro ⟨y, h1 | ⟨h1, rfl⟩, h2, h3⟩
                · exact .inl ⟨y, h1, h2, h3⟩
                · exact .inr ⟨h1, by rw [← h2, hx]⟩
        · rw [if_neg h2]
          constructor
          · intro h; cases h
          · rintro ⟨h, -⟩
            rcases h (k, x) (by simp) with ⟨h3, -⟩ | ⟨h3, -⟩ <;> rw [hk] at h3
            · exact absurd (Option.some.inj h3) h1
            · exact absurd (Option.some.inj h3) h2

/-! ### Through a value -/

theorem flat_restores {v : Value T} {w : Value Unit} (h : Flat v w) : NoBitName v → ∃ u, Back w u ∧ Restores v u := by
  induction h with
  | @prim p c h =>
    intro _
    refine ⟨_, .prim h, ?_⟩
    cases p with
    | bool => exact .bool
    | char => exact .char
    | string => exact .string
    | u128 n => exact .number rfl rfl
    | i128 n => exact .number rfl rfl
    | u256 b => exact absurd rfl (h b).1
    | i256 b => exact absurd rfl (h b).2
  | @u256 b c vs h =>
    intro _
    have : List.Forall₂ (fun v w : Value Unit => v = w ∧ Back v w) vs vs := by
      rw [List.forall₂_same]
      intro x hx
      refine ⟨rfl, ?_⟩
      rw [byteList_iff] at h
      subst h
      obtain ⟨b, -, rfl⟩ := List.mem_map.1 hx
      exact .prim (fun _ => ⟨by simp, by simp⟩)
    obtain ⟨h1, h2⟩ := pointwise_forall₂.2 this
    refine ⟨_, .unnamed h1 fun i x y a b => (h2 i x y a b).2, .u256 h.1 fun i x w hx hw => ?_⟩
    obtain ⟨u, hu, rfl⟩ := h.2 i x w hx hw
    exact congrArg some (by simp [hu])
  | @i256 b c vs h =>
    intro _
    have : List.Forall₂ (fun v w : Value Unit => v = w ∧ Back v w) vs vs := by
      rw [List.forall₂_same]
      intro x hx
      refine ⟨rfl, ?_⟩
      rw [byteList_iff] at h
      subst h
      obtain ⟨b, -, rfl⟩ := List.mem_map.1 hx
      exact .prim (fun _ => ⟨by simp, by simp⟩)
    obtain ⟨h1, h2⟩ := pointwise_forall₂.2 this
    refine ⟨_, .unnamed h1 fun i x y a b => (h2 i x y a b).2, .i256 h.1 fun i x w hx hw => ?_⟩
    obtain ⟨u, hu, rfl⟩ := h.2 i x w hx hw
    exact congrArg some (by simp [hu])
  | bits h => intro _; exact ⟨_, .bitsLike rfl h, .bits⟩
  | @named fs gs c names sub ih =>
    intro hn
    cases hn with
    | named first hs =>
      have key : ∀ (fs : List (Str × Value T)) (gs : List (Str × Value Unit)), List.Forall₂ (fun x y => x.1 = y.1 ∧ (NoBitName x.2 → ∃ u, Back y.2 u ∧ Restores x.2 u)) fs gs →
          (∀ p ∈ fs, NoBitName p.2) → ∃ us : List (Str × Value Unit), List.Forall₂ (fun x y => x.1 = y.1 ∧ Back x.2 y.2) gs us ∧ List.Forall₂ (fun x y => x.1 = y.1 ∧ Restores x.2 y.2) fs us := by
        intro fs gs h
        induction h with
        | nil => intro _; exact ⟨[], .nil, .nil⟩
        | @cons x y xs ys h1 _ ih =>
          intro hs
          obtain ⟨u, hu1, hu2⟩ := h1.2 (hs x (by simp))
          obtain ⟨us, hus1, hus2⟩ := ih fun p hp => hs p (by simp [hp])
          exact ⟨(x.1, u) :: us, .cons ⟨h1.1.symm, hu1⟩ hus1, .cons ⟨rfl, hu2⟩ hus2⟩
      obtain ⟨us, h1, h2⟩ := key fs gs (forall₂_names (R := fun (x : Value T) y => NoBitName x → ∃ u, Back y u ∧ Restores x u).2 ⟨names, ih⟩) hs
      obtain ⟨a1, a2⟩ := forall₂_names (R := fun x y => Back x y).1 h1
      obtain ⟨b1, b2⟩ := forall₂_names (R := fun (x : Value T) y => Restores x y).1 h2
      refine ⟨_, .named ?_ a1 a2, .named b1 b2⟩
      intro p hp
      cases gs with
      | nil => cases hp
      | cons g gs =>
        cases fs with
        | nil => simp at names
        | cons f fs =>
          simp only [List.head?_cons, Option.some.injEq] at hp
          simp only [List.map_cons, List.cons.injEq] at names
          rw [← hp, ← names.1]
          exact first f rfl
  | @unnamed vs ws c len sub ih =>
    intro hn
    cases hn with
    | unnamed hs =>
      have key : ∀ (fs : List (Value T)) (gs : List (Value Unit)), List.Forall₂ (fun x y => (NoBitName x → ∃ u, Back y u ∧ Restores x u)) fs gs →
          (∀ p ∈ fs, NoBitName p) → ∃ us : List (Value Unit), List.Forall₂ (fun x y => Back x y) gs us ∧ List.Forall₂ (fun x y => Restores x y) fs us := by
        intro fs gs h
        induction h with
        | nil => intro _; exact ⟨[], .nil, .nil⟩
        | @cons x y xs ys h1 _ ih =>
          intro hs
          obtain ⟨u, hu1, hu2⟩ := h1 (hs x (by simp))
          obtain ⟨us, hus1, hus2⟩ := ih fun p hp => hs p (by simp [hp])
          exact ⟨u :: us, .cons hu1 hus1, .cons hu2 hus2⟩
      obtain ⟨us, h1, h2⟩ := key vs ws (pointwise_forall₂.1 ⟨len, ih⟩) hs
      obtain ⟨a1, a2⟩ := pointwise_forall₂.2 h1
      obtain ⟨b1, b2⟩ := pointwise_forall₂.2 h2
      exact ⟨_, .unnamed a1 a2, .unnamed b1 b2⟩
  | @variant n f w c d h ih =>
    intro hn
    have hn' : NoBitName (.mk (.composite f) d) := by
      cases hn with
      | variant hn => cases hn with
        | named a b => exact .named a b
        | unnamed a => exact .unnamed a
    obtain ⟨u, hu1, hu2⟩ := ih hn'
    refine ⟨.mk (.composite (.named [("name".toList, .mk (.primitive (.string n)) ()), ("values".toList, u)])) (), .named ?_ rfl ?_, .variant hu2⟩
    · intro p hp; cases hp; exact key_ne_bit
    · intro i x y hx hy
      match i with
      | 0 => cases hx; cases hy; exact .prim (fun _ => ⟨by simp, by simp⟩)
      | 1 => cases hx; cases hy; exact hu1
      | i + 2 => cases hx

/-! ### Contexts -/

theorem serialize_mapContext {U S : Type} (f : S → T → U × S) (v : Value T) : ∀ s, (v.mapContextS f s).serialize = v.serialize := by
  induction v using Value.ind with
  | named fs c ih =>
    intro s
    simp only [mapContextS_named, Value.serialize, ValueDef.serialize, Composite.serialize, serializeFields_eq, List.map_map]
    congr 1
    exact List.map_congr_left fun p hp => by simp [ih p hp]
  | unnamed vs c ih =>
    intro s
    simp only [mapContextS_unnamed, Value.serialize, ValueDef.serialize, Composite.serialize, serializeVals_eq, List.map_map]
    congr 1
    exact List.map_congr_left fun p hp => by simp [ih p hp]
  | vnamed n fs c ih =>
    intro s
    simp only [mapContextS_vnamed, Value.serialize, ValueDef.serialize, Variant.serialize, Composite.serialize, serializeFields_eq, List.map_map]
    congr 5
    exact List.map_congr_left fun p hp => by simp [ih p hp]
  | vunnamed n vs c ih =>
    intro s
    simp only [mapContextS_vunnamed, Value.serialize, ValueDef.serialize, Variant.serialize, Composite.serialize, serializeVals_eq, List.map_map]
    congr 5
    exact List.map_congr_left fun p hp => by simp [ih p hp]
  | bits b c => intro s; rfl
  | prim p c => intro s; rfl

theorem named_ask_congr {U : Type} {fs : List (Str × Value T)} {gs : List (Str × Value U)} (h1 : fieldDers fs = fieldDers gs) (h2 : fieldVals fs = fieldVals gs)
    (h3 : bytesOf (fs.map (fun p => p.2)) = bytesOf (gs.map (fun p => p.2))) : (Composite.named fs).ask = (Composite.named gs).ask := by
  have hl : fs.length = gs.length := by
    have := congrArg List.length h2
    rw [fieldVals_eq, fieldVals_eq] at this
    simpa using this
  have he : fs.isEmpty = gs.isEmpty := by cases fs <;> cases gs <;> simp at hl ⊢
  funext a
  cases a <;> simp only [Composite.ask, h1, h2, h3, hl, he]

theorem unnamed_ask_congr {U : Type} {fs : List (Value T)} {gs : List (Value U)} (h2 : valDers fs = valDers gs)
    (h3 : bytesOf fs = bytesOf gs) : (Composite.unnamed fs).ask = (Composite.unnamed gs).ask ∧ (Composite.unnamed fs).elems? = (Composite.unnamed gs).elems? := by
  have hl : fs.length = gs.length := by
    have := congrArg List.length h2
    rw [valDers_eq, valDers_eq] at this
    simpa using this
  have he : fs.isEmpty = gs.isEmpty := by cases fs <;> cases gs <;> simp at hl ⊢
  refine ⟨?_, by simp only [Composite.elems?, h2]⟩
  funext a
  cases a <;> simp only [Composite.ask, h2, h3, hl, he]

theorem byteOf_mapContext {U S : Type} (f : S → T → U × S) (v : Value T) (s : S) : byteOf (v.mapContextS f s) = byteOf v := by
  cases v with | mk d c =>
  cases d with
  | primitive p => cases p <;> rfl
  | _ => rfl

theorem bytesOf_mapContext {U S : Type} (f : S → T → U × S) (vs : List (Value T)) (s : S) : bytesOf (vs.map (fun v => v.mapContextS f s)) = bytesOf vs := by
  induction vs with
  | nil => rfl
  | cons v vs ih => simp only [List.map_cons, bytesOf, ih, byteOf_mapContext]

theorem composite_der_congr {U : Type} {f : Composite T} {g : Composite U} (h : f.ask = g.ask) (c : T) (d : U) :
    (Value.mk (.composite f) c).der = (Value.mk (.composite g) d).der := by
  simp only [Value.der, ValueDef.ask, h]

theorem variant_der_congr {U : Type} {f : Composite T} {g : Composite U} (h : f.ask = g.ask) (h' : f.elems? = g.elems?) (n : Str) (c : T) (d : U) :
    (Value.mk (.variant (.mk n f)) c).der = (Value.mk (.variant (.mk n g)) d).der := by
  have h1 : (Variant.mk n f).ask = (Variant.mk n g).ask := by simp only [Variant.ask, h]
  have h2 : (Variant.mk n f).askOption = (Variant.mk n g).askOption := by simp only [Variant.askOption, h, h']
  simp only [Value.der, ValueDef.ask, h1, h2]

theorem der_mapContext {U S : Type} (f : S → T → U × S) (v : Value T) : ∀ s, (v.mapContextS f s).der = v.der := by
  have named : ∀ (fs : List (Str × Value T)) (s : S), (∀ p ∈ fs, ∀ s, (p.2.mapContextS f s).der = p.2.der) →
      (Composite.named (fs.map (fun p => (p.1, p.2.mapContextS f s)))).ask = (Composite.named fs).ask := by
    intro fs s ih
    apply named_ask_congr
    · rw [fieldDers_eq, fieldDers_eq, List.map_map]
      exact List.map_congr_left fun p hp => by simp [ih p hp]
    · rw [fieldVals_eq, fieldVals_eq, List.map_map]
      exact List.map_congr_left fun p hp => by simp [ih p hp]
    · rw [List.map_map, ← bytesOf_mapContext f (fs.map (fun p => p.2)) s, List.map_map]
      rfl
  have unnamed : ∀ (fs : List (Value T)) (s : S), (∀ p ∈ fs, ∀ s, (p.mapContextS f s).der = p.der) →
      (Composite.unnamed (fs.map (fun p => p.mapContextS f s))).ask = (Composite.unnamed fs).ask ∧
      (Composite.unnamed (fs.map (fun p => p.mapContextS f s))).elems? = (Composite.unnamed fs).elems? := by
    intro fs s ih
    apply unnamed_ask_congr
    · rw [valDers_eq, valDers_eq, List.map_map]
      exact List.map_congr_left fun p hp => by simp [ih p hp]
    · exact bytesOf_mapContext f fs s
  induction v using Value.ind with
  | named fs c ih => intro s; rw [mapContextS_named]; exact composite_der_congr (named fs _ ih) _ _
  | unnamed vs c ih => intro s; rw [mapContextS_unnamed]; exact composite_der_congr (unnamed vs _ ih).1 _ _
  | vnamed n fs c ih => intro s; rw [mapContextS_vnamed]; exact variant_der_congr (named fs _ ih) rfl _ _ _
  | vunnamed n vs c ih => intro s; rw [mapContextS_vunnamed]; exact variant_der_congr (unnamed vs _ ih).1 (unnamed vs _ ih).2 _ _ _
  | bits b c => intro s; rfl
  | prim p c => intro s; rfl

end SV
