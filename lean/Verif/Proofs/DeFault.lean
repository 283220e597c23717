import Verif.Proofs.DeErr
import Verif.Proofs.SerdeApi
/-
Which error is returned.
-/
namespace SV

variable {T : Type}

theorem mapE_error {A B : Type} {f : A → B} {x : Except DeErr A} {e : DeErr} : x.map f = .error e ↔ x = .error e := by
  cases x <;> simp [Except.map]

theorem shownAs_exists (v : Value T) : ∃ u, ShownAs v u := by
  cases v with | mk d c =>
  cases d with
  | composite f => cases f with
    | named fs => exact ⟨_, .named rfl⟩
    | unnamed vs => exact ⟨_, .unnamed rfl⟩
  | variant x => exact ⟨_, .variant rfl⟩
  | bitSequence b => exact ⟨_, .bits rfl⟩
  | primitive p => cases p with
    | bool b => exact ⟨_, .bool rfl⟩
    | char b => exact ⟨_, .char rfl⟩
    | string b => exact ⟨_, .string rfl⟩
    | u128 n => exact ⟨_, .u128 (x := ⟨.u128, n.val, by simp [NumTy.lo], by have := n.lt; simp only [NumTy.hi]; omega⟩) rfl rfl rfl⟩
    | i128 n => exact ⟨_, .i128 (x := ⟨.i128, n.val, by simp only [NumTy.lo]; exact n.ge, by simp only [NumTy.hi]; exact n.lt⟩) rfl rfl rfl⟩
    | u256 b => exact ⟨_, .u256 rfl⟩
    | i256 b => exact ⟨_, .i256 rfl⟩

theorem num_ext' {x y : Num} (h : x.ty = y.ty) (h' : x.val = y.val) : x = y := by
  cases x; cases y; simp only at h h'; subst h; subst h'; rfl

/-- The name of a value is what it shows when asked for anything. -/
theorem shownAs_iff (v : Value T) (u : Unexp) : ShownAs v u ↔ u = (v.der.visit .any).unexp := by
  cases v with | mk d c =>
  cases d with
  | composite f => cases f with
    | named fs => exact ⟨fun h => by cases h <;> first | rfl | (exfalso; simp_all [Value.value]), fun h => by subst h; exact .named rfl⟩
    | unnamed vs => exact ⟨fun h => by cases h <;> first | rfl | (exfalso; simp_all [Value.value]), fun h => by subst h; exact .unnamed rfl⟩
  | variant x => cases x; exact ⟨fun h => by cases h <;> first | rfl | (exfalso; simp_all [Value.value]), fun h => by subst h; exact .variant rfl⟩
  | bitSequence b => exact ⟨fun h => by cases h <;> first | rfl | (exfalso; simp_all [Value.value]), fun h => by subst h; exact .bits rfl⟩
  | primitive p => cases p with
    | bool b => exact ⟨fun h => by cases h with | bool h => cases h; rfl | _ => (exfalso; simp_all [Value.value]), fun h => by subst h; exact .bool rfl⟩
    | char b => exact ⟨fun h => by cases h with | char h => cases h; rfl | _ => (exfalso; simp_all [Value.value]), fun h => by subst h; exact .char rfl⟩
    | string b => exact ⟨fun h => by cases h with | string h => cases h; rfl | _ => (exfalso; simp_all [Value.value]), fun h => by subst h; exact .string rfl⟩
    | u128 n => exact ⟨fun h => by cases h with | u128 h a b => cases h; exact congrArg Unexp.num (num_ext' a b) | _ => (exfalso; simp_all [Value.value]), fun h => by subst h; exact .u128 rfl rfl rfl⟩
    | i128 n => exact ⟨fun h => by cases h with | i128 h a b => cases h; exact congrArg Unexp.num (num_ext' a b) | _ => (exfalso; simp_all [Value.value]), fun h => by subst h; exact .i128 rfl rfl rfl⟩
    | u256 b => exact ⟨fun h => by cases h with | u256 h => cases h; rfl | _ => (exfalso; simp_all [Value.value]), fun h => by subst h; exact .u256 rfl⟩
    | i256 b => exact ⟨fun h => by cases h with | i256 h => cases h; rfl | _ => (exfalso; simp_all [Value.value]), fun h => by subst h; exact .i256 rfl⟩

theorem shownAs_unique {v : Value T} {u u' : Unexp} (h : ShownAs v u) (h' : ShownAs v u') : u = u' := by
  rw [shownAs_iff] at h h'; rw [h, h']

theorem byteOf_ok {v : Value T} : (∃ b, byteOf v = .ok b) ↔ IsByte v := by
  unfold byteOf IsByte
  split
  · next n h =>
    rw [h]
    split
    · next hn => simp [hn]
    · next hn => simp [hn]
  · next h =>
    constructor
    · rintro ⟨b, hb⟩; cases hb
    · rintro ⟨n, hn, _⟩; exact absurd hn (h n)

theorem byteOf_error {v : Value T} {e : Refusal} : byteOf v = .error e ↔
    (∃ n, v.value = .primitive (.u128 n) ∧ 256 ≤ n.val ∧ e = .byteRange) ∨ ((∀ n, v.value ≠ .primitive (.u128 n)) ∧ e = .byteNonNumeric) := by
  unfold byteOf
  split
  · next n h =>
    rw [h]
    split
    · next hn =>
      constructor
      · intro h; cases h
      · rintro (⟨m, h, h1, -⟩ | ⟨h, -⟩)
        · cases h; omega
        · exact absurd rfl (h n)
    · next hn =>
      constructor
      · intro h; cases h; exact .inl ⟨n, rfl, by omega, rfl⟩
      · rintro (⟨m, h, h1, rfl⟩ | ⟨h, -⟩)
        · rfl
        · exact absurd rfl (h n)
  · next h =>
    constructor
    · intro h'; cases h'; exact .inr ⟨h, rfl⟩
    · rintro (⟨m, h', -⟩ | ⟨-, rfl⟩)
      · exact absurd h' (h m)
      · rfl

theorem bytesOf_error {vs : List (Value T)} {e : Refusal} : bytesOf vs = .error e ↔ ∃ pre w post, vs = pre ++ w :: post ∧ (∀ x ∈ pre, IsByte x) ∧ byteOf w = .error e := by
  induction vs with
  | nil => simp [bytesOf]
  | cons v vs ih =>
    rw [bytesOf]
    cases h : byteOf v with
    | error e' =>
      simp only
      constructor
      · intro h'; cases h'; exact ⟨[], v, vs, rfl, by simp, h⟩
      · rintro ⟨pre, w, post, h1, h2, h3⟩
        cases pre with
        | nil => cases h1; rw [h] at h3; cases h3; rfl
        | cons p pre =>
          cases h1
          obtain ⟨b, hb⟩ := byteOf_ok.2 (h2 v (by simp))
          rw [h] at hb; cases hb
    | ok b =>
      simp only
      refine Iff.trans (b := bytesOf vs = .error e) (by cases bytesOf vs <;> simp) ?_
      rw [ih]
      constructor
      · rintro ⟨pre, w, post, rfl, h2, h3⟩
        refine ⟨v :: pre, w, post, rfl, ?_, h3⟩
        intro x hx
        rcases List.mem_cons.1 hx with rfl | hx
        · exact byteOf_ok.1 ⟨b, h⟩
        · exact h2 x hx
      · rintro ⟨pre, w, post, h1, h2, h3⟩
        cases pre with
        | nil => cases h1; rw [h] at h3; cases h3
        | cons p pre => cases h1; exact ⟨pre, w, post, rfl, fun x hx => h2 x (by simp [hx]), h3⟩

/-- Composites refuse tuples of another length, units, and bytes. -/
theorem composite_refuses (f : Composite T) (h : Hint) (e : Refusal) : f.ask h = .error e ↔
    (∃ n, (h = .tuple n ∨ h = .tupleStruct n) ∧ f.vals.length ≠ n ∧ e = .tupleLength f.vals.length n) ∨
    ((h = .unit ∨ h = .unitStruct) ∧ f.vals ≠ [] ∧ e = .nonEmptyUnit) ∨
    (h = .bytes ∧ bytesOf f.vals = .error e) := by
  cases f with
  | named fs =>
    cases h with
    | tuple n =>
      simp only [Composite.ask, Composite.vals, List.length_map]
      split
      · next hn => simp [hn]
      · next hn => simp only [reduceCtorEq, Hint.tuple.injEq, Hint.tupleStruct.injEq, Reply.error.injEq, false_or, or_false, false_and, exists_eq_left', hn, ne_eq, not_false_eq_true, true_and]; exact eq_comm
    | tupleStruct n =>
      simp only [Composite.ask, Composite.vals, List.length_map]
      split
      · next hn => simp [hn]
      · next hn => simp only [reduceCtorEq, Hint.tuple.injEq, Hint.tupleStruct.injEq, Reply.error.injEq, false_or, or_false, false_and, exists_eq_left', hn, ne_eq, not_false_eq_true, true_and]; exact eq_comm
    | unit => simp only [Composite.ask, Composite.vals]; cases fs <;> simp [@eq_comm _ e]
    | unitStruct => simp only [Composite.ask, Composite.vals]; cases fs <;> simp [@eq_comm _ e]
    | bytes => simp only [Composite.ask, Composite.vals]; cases bytesOf (fs.map (fun p => p.2)) <;> simp
    | _ => simp [Composite.ask]
  | unnamed vs =>
    cases h with
    | tuple n =>
      simp only [Composite.ask, Composite.vals]
      split
      · next hn => simp [hn]
      · next hn => simp only [reduceCtorEq, Hint.tuple.injEq, Hint.tupleStruct.injEq, Reply.error.injEq, false_or, or_false, false_and, exists_eq_left', hn, ne_eq, not_false_eq_true, true_and]; exact eq_comm
    | tupleStruct n =>
      simp only [Composite.ask, Composite.vals]
      split
      · next hn => simp [hn]
      · next hn => simp only [reduceCtorEq, Hint.tuple.injEq, Hint.tupleStruct.injEq, Reply.error.injEq, false_or, or_false, false_and, exists_eq_left', hn, ne_eq, not_false_eq_true, true_and]; exact eq_comm
    | unit => simp only [Composite.ask, Composite.vals]; cases vs <;> simp [@eq_comm _ e]
    | unitStruct => simp only [Composite.ask, Composite.vals]; cases vs <;> simp [@eq_comm _ e]
    | bytes => simp only [Composite.ask, Composite.vals]; cases bytesOf vs <;> simp
    | _ => simp [Composite.ask]

theorem visit_error {d : Der} {h : Hint} {e : Refusal} : d.visit h = .error e ↔ d.ask h = .error e := by
  unfold Der.visit
  split <;> simp_all

theorem refuses_iff (v : Value T) (h : Hint) (e : Refusal) : v.der.visit h = .error e ↔ Refuses v h e := by
  rw [visit_error]
  cases v with | mk d c =>
  cases d with
  | composite f =>
    have key : f.ask h = .error e ↔ Refuses (Value.mk (.composite f) c) h e := by
      rw [composite_refuses]
      constructor
      · rintro (⟨n, rfl | rfl, h1, rfl⟩ | ⟨rfl | rfl, h1, rfl⟩ | ⟨rfl, h1⟩)
        · exact .tuple rfl h1
        · exact .tupleStruct rfl h1
        · exact .unit rfl h1
        · exact .unitStruct rfl h1
        · obtain ⟨pre, w, post, h2, h3, h4⟩ := bytesOf_error.1 h1
          rcases byteOf_error.1 h4 with ⟨n, h5, h6, rfl⟩ | ⟨h5, rfl⟩
          · exact .byteRange rfl h2 h3 h5 h6
          · exact .notNumber rfl h2 h3 h5
      · intro hr
        cases hr with
        | tuple hc h1 => cases hc; exact .inl ⟨_, .inl rfl, h1, rfl⟩
        | tupleStruct hc h1 => cases hc; exact .inl ⟨_, .inr rfl, h1, rfl⟩
        | unit hc h1 => cases hc; exact .inr (.inl ⟨.inl rfl, h1, rfl⟩)
        | unitStruct hc h1 => cases hc; exact .inr (.inl ⟨.inr rfl, h1, rfl⟩)
        | byteRange hc h1 h2 h3 h4 => cases hc; exact .inr (.inr ⟨rfl, bytesOf_error.2 ⟨_, _, _, h1, h2, byteOf_error.2 (.inl ⟨_, h3, h4, rfl⟩)⟩⟩)
        | notNumber hc h1 h2 h3 => cases hc; exact .inr (.inr ⟨rfl, bytesOf_error.2 ⟨_, _, _, h1, h2, byteOf_error.2 (.inr ⟨h3, rfl⟩)⟩⟩)
        | _ => (exfalso; simp_all [Value.value, Value.fields?])
    cases f <;> cases h <;> first
      | exact key
      | (refine ⟨fun h => ?_, fun h => ?_⟩
         · simp [Value.der, Der.ask, ValueDef.ask, Composite.ask] at h
         · exact absurd (key.2 h) (by simp [Composite.ask]))
  | variant x =>
    cases x with | mk n f =>
    constructor
    · intro hr
      have : ∃ h', (h' = h) ∧ h ≠ .bytes ∧ f.ask h' = .error e := by
        cases h with
        | option =>
          exfalso
          cases f with
          | named fs => simp [Value.der, Der.ask, ValueDef.ask, Variant.askOption, Composite.elems?] at hr
          | unnamed vs =>
            simp only [Value.der, Der.ask, ValueDef.ask, Variant.askOption, Composite.elems?] at hr
            split at hr
            · split at hr <;> cases hr
            · split at hr <;> cases hr
            · cases hr
        | tuple n => exact ⟨_, rfl, by simp, hr⟩
        | tupleStruct n => exact ⟨_, rfl, by simp, hr⟩
        | unit => exact ⟨_, rfl, by simp, hr⟩
        | unitStruct => exact ⟨_, rfl, by simp, hr⟩
        | map => exact ⟨_, rfl, by simp, hr⟩
        | seq => exact ⟨_, rfl, by simp, hr⟩
        | _ => simp [Value.der, Der.ask, ValueDef.ask, Variant.ask] at hr
      obtain ⟨_, rfl, hb, hr⟩ := this
      rcases (composite_refuses _ _ _).1 hr with ⟨n, rfl | rfl, h1, rfl⟩ | ⟨rfl | rfl, h1, rfl⟩ | ⟨rfl, h1⟩
      · exact .tuple rfl h1
      · exact .tupleStruct rfl h1
      · exact .unit rfl h1
      · exact .unitStruct rfl h1
      · exact absurd rfl hb
    · intro hr
      cases hr with
      | tuple hc h1 => cases hc; exact (composite_refuses _ _ _).2 (.inl ⟨_, .inl rfl, h1, rfl⟩)
      | tupleStruct hc h1 => cases hc; exact (composite_refuses _ _ _).2 (.inl ⟨_, .inr rfl, h1, rfl⟩)
      | unit hc h1 => cases hc; exact (composite_refuses _ _ _).2 (.inr (.inl ⟨.inl rfl, h1, rfl⟩))
      | unitStruct hc h1 => cases hc; exact (composite_refuses _ _ _).2 (.inr (.inl ⟨.inr rfl, h1, rfl⟩))
      | _ => (exfalso; simp_all [Value.value, Value.fields?])
  | bitSequence b =>
    constructor
    · intro hr
      cases h <;> simp only [Value.der, Der.ask, ValueDef.ask, bitsReply, reduceCtorEq, Reply.error.injEq] at hr <;> subst hr <;> constructor <;> rfl
    · intro hr
      cases hr <;> first | rfl | (exfalso; simp_all [Value.value, Value.fields?])
  | primitive p =>
    constructor
    · intro hr
      exfalso
      cases p <;> cases h <;> simp [Value.der, Der.ask, ValueDef.ask, Primitive.ask, Primitive.any, Primitive.askNum] at hr
      all_goals (split at hr <;> cases hr)
    · intro hr
      cases hr <;> simp_all [Value.value, Value.fields?]

theorem allOfE_error {A B : Type} {f : A → Except DeErr B} {l : List A} {e : DeErr} : allOfE f l = .error e ↔ FirstError f l e := by
  unfold FirstError
  induction l with
  | nil => simp [allOfE]
  | cons a l ih =>
    rw [allOfE]
    cases h : f a with
    | error e' =>
      constructor
      · intro h'; cases h'; exact ⟨[], a, l, rfl, by simp, h⟩
      · rintro ⟨pre, w, post, h1, h2, h3⟩
        cases pre with
        | nil => cases h1; rw [h] at h3; cases h3; rfl
        | cons p pre =>
          cases h1
          obtain ⟨b, hb⟩ := h2 a (by simp)
          rw [h] at hb; cases hb
    | ok b =>
      refine Iff.trans (b := allOfE f l = .error e) (by simp only []; cases allOfE f l <;> simp) ?_
      rw [ih]
      constructor
      · rintro ⟨pre, w, post, rfl, h2, h3⟩
        refine ⟨a :: pre, w, post, rfl, ?_, h3⟩
        intro x hx
        rcases List.mem_cons.1 hx with rfl | hx
        · exact ⟨b, h⟩
        · exact h2 x hx
      · rintro ⟨pre, w, post, h1, h2, h3⟩
        cases pre with
        | nil => cases h1; rw [h] at h3; cases h3
        | cons p pre => cases h1; exact ⟨pre, w, post, rfl, fun x hx => h2 x (by simp [hx]), h3⟩

theorem firstError_map {A B C : Type} {f : B → Except DeErr C} {g : A → B} {l : List A} {e : DeErr} : FirstError f (l.map g) e ↔ FirstError (fun x => f (g x)) l e := by
  rw [← allOfE_error, ← allOfE_error]
  have : allOfE f (l.map g) = allOfE (fun x => f (g x)) l := by
    induction l with
    | nil => rfl
    | cons a l ih => rw [List.map_cons, allOfE, allOfE, ih]
  rw [this]

theorem firstError_cons {A B : Type} {f : A → Except DeErr B} {a : A} {l : List A} {e : DeErr} :
    FirstError f (a :: l) e ↔ f a = .error e ∨ (∃ b, f a = .ok b) ∧ FirstError f l e := by
  rw [← allOfE_error, ← allOfE_error, allOfE]
  cases f a with
  | error e' => simp
  | ok b => cases allOfE f l <;> simp

theorem noError_iff {A B : Type} {f : A → Except DeErr B} {l : List A} : NoError f l ↔ ∀ e, ¬ FirstError f l e := by
  constructor
  · rintro h e ⟨pre, x, post, rfl, -, h2⟩
    obtain ⟨b, hb⟩ := h x (by simp)
    rw [h2] at hb; cases hb
  · intro h
    cases hl : allOfE f l with
    | error e => exact absurd (allOfE_error.1 hl) (h e)
    | ok bs =>
      clear h
      induction l generalizing bs with
      | nil => intro x hx; cases hx
      | cons a l ih =>
        rw [allOfE] at hl
        cases ha : f a with
        | error e => rw [ha] at hl; cases hl
        | ok b =>
          rw [ha] at hl
          cases hl' : allOfE f l with
          | error e => rw [hl'] at hl; cases hl
          | ok bs' =>
            intro x hx
            rcases List.mem_cons.1 hx with rfl | hx
            · exact ⟨b, ha⟩
            · exact ih _ hl' x hx

theorem noError_cons {A B : Type} {f : A → Except DeErr B} {a : A} {l : List A} : NoError f (a :: l) ↔ (∃ b, f a = .ok b) ∧ NoError f l := by
  unfold NoError; simp

/-- The elements of a tuple. -/
theorem deListE_error {ts : List Ty} {i : Nat} {l : List Der} {e : DeErr} : Ty.deListE ts i false l = .error e ↔
    FirstError (fun p : Ty × Der => p.1.deE p.2) (ts.zip l) e ∨ (NoError (fun p : Ty × Der => p.1.deE p.2) (ts.zip l) ∧ l.length < ts.length ∧ e = .invalidLength (i + l.length) .tuple) := by
  induction ts generalizing i l with
  | nil => simp [Ty.deListE, FirstError]
  | cons t ts ih =>
    cases l with
    | nil => simp [Ty.deListE, FirstError, NoError, eq_comm]
    | cons d l =>
      rw [Ty.deListE, List.zip_cons_cons, firstError_cons, noError_cons]
      simp only
      cases h : t.deE d with
      | error e' => simp
      | ok x =>
        refine Iff.trans (b := Ty.deListE ts (i + 1) false l = .error e) (by simp only []; cases Ty.deListE ts (i + 1) false l <;> simp) ?_
        rw [ih]
        simp only [List.length_cons, Nat.add_lt_add_iff_right, reduceCtorEq, false_or, Except.ok.injEq, exists_eq', true_and, Nat.add_assoc, Nat.add_comm 1]

theorem deFieldListE_error {ts : List (Str × Ty)} {i : Nat} {l : List Der} {e : DeErr} : Ty.deFieldListE ts i false l = .error e ↔
    FirstError (fun p : (Str × Ty) × Der => p.1.2.deE p.2) (ts.zip l) e ∨
      (NoError (fun p : (Str × Ty) × Der => p.1.2.deE p.2) (ts.zip l) ∧ l.length < ts.length ∧ e = .invalidLength (i + l.length) .struct) := by
  induction ts generalizing i l with
  | nil => simp [Ty.deFieldListE, FirstError]
  | cons t ts ih =>
    obtain ⟨n, t⟩ := t
    cases l with
    | nil => simp [Ty.deFieldListE, FirstError, NoError, eq_comm]
    | cons d l =>
      rw [Ty.deFieldListE, List.zip_cons_cons, firstError_cons, noError_cons]
      simp only
      cases h : t.deE d with
      | error e' => simp
      | ok x =>
        refine Iff.trans (b := Ty.deFieldListE ts (i + 1) false l = .error e) (by simp only []; cases Ty.deFieldListE ts (i + 1) false l <;> simp) ?_
        rw [ih]
        simp only [List.length_cons, Nat.add_lt_add_iff_right, reduceCtorEq, false_or, Except.ok.injEq, exists_eq', true_and, Nat.add_assoc, Nat.add_comm 1]

/-! ### Structs -/

theorem loopRel_fine {fs : List (Str × Ty)} (nd : (fs.map (fun f => f.1)).Nodup) {es : List (Str × Der)} {acc : List (Str × Dat)}
    (h : LoopRel (Ty.deFieldE fs) es [] acc) :
    EntriesFine fs es ∧ ∀ n, n ∈ fs.map (fun f => f.1) → (got n acc = none ↔ n ∉ es.map (fun p => p.1)) := by
  have hm : ∀ {n : Str}, n ∈ fs.map (fun p => p.1) → ∃ t, (n, t) ∈ fs := by
    intro n hn
    obtain ⟨⟨m, t⟩, h, rfl⟩ := List.mem_map.1 hn
    exact ⟨t, h⟩
  have key : ∀ n t, (n, t) ∈ fs → _ := fun n t hf => loopRel_got h (n := n) (fun d => by rw [deFieldE_mem nd hf]; simp)
  refine ⟨⟨?_, ?_⟩, ?_⟩
  · rintro ⟨n, t⟩ hf
    rcases key n t hf with ⟨h1, -⟩ | ⟨d, x, h1, -⟩
    · simp only [h1]; simp
    · simp only [h1]; simp
  · rintro ⟨n, d⟩ hp t hf
    have hmem : (n, d) ∈ es.filter (fun q => decide (q.1 = n)) := List.mem_filter.2 ⟨hp, by simp⟩
    rcases key n t hf with ⟨h1, -⟩ | ⟨d', x, h1, -, h2, -⟩
    · rw [h1] at hmem; cases hmem
    · rw [h1] at hmem
      have : d = d' := by simpa using hmem
      subst this
      rw [deFieldE_mem nd hf, Option.some.injEq] at h2
      exact ⟨x, h2⟩
  · intro n hn
    obtain ⟨t, hf⟩ := hm hn
    have hfl : es.filter (fun p => decide (p.1 = n)) = [] ↔ n ∉ es.map (fun p => p.1) := by
      simp only [List.filter_eq_nil_iff, decide_eq_true_eq, List.mem_map, not_exists, not_and]
    rcases key n t hf with ⟨h1, h2⟩ | ⟨d, x, h1, -, -, h2⟩
    · rw [h2]; exact ⟨fun _ => hfl.1 h1, fun _ => rfl⟩
    · rw [h2]
      simp only [reduceCtorEq, false_iff, Classical.not_not]
      apply Classical.byContradiction
      intro hc
      rw [hfl.2 hc] at h1; cases h1

theorem fine_loopRel {fs : List (Str × Ty)} (nd : (fs.map (fun f => f.1)).Nodup) {es : List (Str × Der)} (hi : ∀ p ∈ es, deIgnored p.2 = true) (h : EntriesFine fs es) :
    ∃ acc, LoopRel (Ty.deFieldE fs) es [] acc := by
  have hm : ∀ {n : Str}, n ∈ fs.map (fun p => p.1) → ∃ t, (n, t) ∈ fs := by
    intro n hn
    obtain ⟨⟨m, t⟩, h, rfl⟩ := List.mem_map.1 hn
    exact ⟨t, h⟩
  have hk : ∀ {n d}, Ty.deFieldE fs n d ≠ none → ∃ t, (n, t) ∈ fs := by
    intro n d hn
    apply hm
    apply Classical.byContradiction
    intro h; exact hn (deFieldE_none.2 h)
  apply loopRel_exists
  · intro p hp _; exact hi p hp
  · intro p hp x hx
    obtain ⟨t, hf⟩ := hk (n := p.1) (d := p.2) (by rw [hx]; simp)
    rw [deFieldE_mem nd hf] at hx
    cases hx
    exact h.2 p hp t hf
  · intro n d hn
    obtain ⟨t, hf⟩ := hk hn
    refine ⟨fun d' => by rw [deFieldE_mem nd hf]; simp, ?_⟩
    have := h.1 _ hf
    simpa using this

/-- Where the loop stops with an error. -/
theorem structLoop_error {field : Str → Der → Option (Except DeErr Dat)} {l : List (Der × Der)} {es : List (Str × Der)} (hl : identKeys l = some es)
    (hi : ∀ p ∈ es, deIgnored p.2 = true) {acc : List (Str × Dat)} {e : DeErr} :
    structLoop field l acc = .error e ↔ ∃ pre n d post acc' x, es = pre ++ (n, d) :: post ∧ LoopRel field pre acc acc' ∧ field n d = some x ∧
      ((n ∈ acc'.map (fun p => p.1) ∧ e = .duplicateField n) ∨ (n ∉ acc'.map (fun p => p.1) ∧ x = .error e)) := by
  induction l generalizing es acc with
  | nil =>
    rw [identKeys] at hl
    cases hl
    simp [structLoop]
  | cons p l ih =>
    obtain ⟨k, v⟩ := p
    rw [identKeys, ← deIdentE_agree k] at hl
    rw [structLoop]
    cases hk : deIdentE k with
    | error e => rw [hk] at hl; simp at hl
    | ok n =>
      rw [hk] at hl
      simp only [toOption_mk_ok] at hl
      cases hl' : identKeys l with
      | none => rw [hl'] at hl; cases hl
      | some es' =>
        rw [hl'] at hl
        cases hl
        have hi' : ∀ p ∈ es', deIgnored p.2 = true := fun p hp => hi p (by simp [hp])
        have ih := fun acc => ih (acc := acc) hl' hi'
        simp only
        cases hf : field n v with
        | none =>
          have hiv : deIgnored v = true := hi (n, v) (by simp)
          rw [← deIgnoredE_agree, isOk_iff] at hiv
          obtain ⟨u, hu⟩ := hiv
          simp only [hu, ih]
          constructor
          · rintro ⟨pre, m, d, post, acc', x, rfl, h1, h2⟩
            exact ⟨(n, v) :: pre, m, d, post, acc', x, rfl, .skip hf (hi (n, v) (by simp)) h1, h2⟩
          · rintro ⟨pre, m, d, post, acc', x, h0, h1, h2, h3⟩
            cases pre with
            | nil => cases h0; rw [hf] at h2; cases h2
            | cons q pre =>
              cases h0
              cases h1 with
              | skip _ _ h1 => exact ⟨pre, m, d, post, acc', x, rfl, h1, h2, h3⟩
              | take h1 _ _ => rw [hf] at h1; cases h1
        | some x =>
          simp only
          split
          · next hm =>
            constructor
            · intro h; cases h
              exact ⟨[], n, v, es', acc, x, rfl, .done _, hf, .inl ⟨hm, rfl⟩⟩
            · rintro ⟨pre, m, d, post, acc', x', h0, h1, h2, h3⟩
              cases pre with
              | nil =>
                cases h0; cases h1
                rcases h3 with ⟨_, rfl⟩ | ⟨h3, _⟩
                · rfl
                · exact absurd hm h3
              | cons q pre =>
                cases h0
                cases h1 with
                | skip h1 _ _ => rw [hf] at h1; cases h1
                | take _ h1 _ => exact absurd hm h1
          · next hm =>
            cases x with
            | error e' =>
              constructor
              · intro h; cases h
                exact ⟨[], n, v, es', acc, _, rfl, .done _, hf, .inr ⟨hm, rfl⟩⟩
              · rintro ⟨pre, m, d, post, acc', x', h0, h1, h2, h3⟩
                cases pre with
                | nil =>
                  cases h0; cases h1
                  rcases h3 with ⟨h3, _⟩ | ⟨_, h3⟩
                  · exact absurd h3 hm
                  · rw [hf] at h2; cases h2; cases h3; rfl
                | cons q pre =>
                  cases h0
                  cases h1 with
                  | skip h1 _ _ => rw [hf] at h1; cases h1
                  | take h1 _ _ => rw [hf] at h1; cases h1
            | ok d0 =>
              simp only [ih]
              constructor
              · rintro ⟨pre, m, d, post, acc', x, rfl, h1, h2⟩
                exact ⟨(n, v) :: pre, m, d, post, acc', x, rfl, .take hf hm h1, h2⟩
              · rintro ⟨pre, m, d, post, acc', x', h0, h1, h2, h3⟩
                cases pre with
                | nil =>
                  cases h0; cases h1
                  rcases h3 with ⟨h3, _⟩ | ⟨_, h3⟩
                  · exact absurd h3 hm
                  · rw [hf] at h2; cases h2; cases h3
                | cons q pre =>
                  cases h0
                  cases h1 with
                  | skip h1 _ _ => rw [hf] at h1; cases h1
                  | take h1 _ h1' => rw [hf] at h1; cases h1; exact ⟨pre, m, d, post, acc', x', rfl, h1', h2, h3⟩

theorem missing_none {t : Ty} : t.missing = none ↔ ∀ u, t ≠ .option u := by
  cases t <;> simp [Ty.missing]

/-- The first field that is missing. -/
theorem structEnd_error {fs : List (Str × Ty)} {acc : List (Str × Dat)} {e : DeErr} : structEnd fs acc = .error e ↔
    ∃ pre n t post, fs = pre ++ (n, t) :: post ∧ got n acc = none ∧ (∀ u, t ≠ .option u) ∧ (∀ f ∈ pre, got f.1 acc ≠ none ∨ ∃ u, f.2 = .option u) ∧ e = .missingField n := by
  induction fs with
  | nil => simp [structEnd]
  | cons p fs ih =>
    obtain ⟨n, t⟩ := p
    rw [structEnd]
    generalize h : (match got n acc with | some x => some x | none => t.missing) = q
    have h' : (match q with | none => Except.error (DeErr.missingField n) | some x => match structEnd fs acc with | .error e => .error e | .ok xs => .ok (x :: xs)) = Except.error e ↔
        (q = none ∧ e = .missingField n) ∨ ((∃ x, q = some x) ∧ structEnd fs acc = .error e) := by
      cases q with
      | none => simp [@eq_comm _ e]
      | some x => cases structEnd fs acc <;> simp
    refine Iff.trans (by subst h; cases got n acc <;> exact Iff.rfl) (h'.trans ?_)
    clear h'
    cases q with
    | none =>
      have hg : got n acc = none ∧ t.missing = none := by
        cases hg : got n acc with
        | none => rw [hg] at h; exact ⟨rfl, h⟩
        | some x => rw [hg] at h; cases h
      simp only [true_and, reduceCtorEq, exists_false, false_and, or_false]
      constructor
      · intro h'; subst h'
        exact ⟨[], n, t, fs, rfl, hg.1, missing_none.1 hg.2, by simp, rfl⟩
      · rintro ⟨pre, m, s, post, h0, h1, h2, h3, rfl⟩
        cases pre with
        | nil => cases h0; rfl
        | cons q pre =>
          cases h0
          rcases h3 (n, t) (by simp) with h | ⟨u, hu⟩
          · exact absurd hg.1 h
          · exact absurd hu (missing_none.1 hg.2 u)
    | some x =>
      have hg : got n acc ≠ none ∨ ∃ u, t = .option u := by
        cases hg : got n acc with
        | some y => simp
        | none =>
          rw [hg] at h
          right
          cases t <;> simp_all [Ty.missing]
      simp only [reduceCtorEq, false_and, false_or, Option.some.injEq, exists_eq', true_and]
      rw [ih]
      constructor
      · rintro ⟨pre, m, s, post, rfl, h1, h2, h3, h4⟩
        refine ⟨(n, t) :: pre, m, s, post, rfl, h1, h2, ?_, h4⟩
        intro f hf
        rcases List.mem_cons.1 hf with rfl | hf
        · exact hg
        · exact h3 f hf
      · rintro ⟨pre, m, s, post, h0, h1, h2, h3, h4⟩
        cases pre with
        | nil =>
          cases h0
          rcases hg with h | ⟨u, hu⟩
          · exact absurd h1 h
          · exact absurd hu (h2 u)
        | cons q pre =>
          cases h0
          exact ⟨pre, m, s, post, rfl, h1, h2, fun f hf => h3 f (by simp [hf]), h4⟩

/-- The error of reading a struct from a map. -/
theorem structMap_error {fs : List (Str × Ty)} (nd : (fs.map (fun f => f.1)).Nodup) {l : List (Der × Der)} {es : List (Str × Der)} (hl : identKeys l = some es)
    (hi : ∀ p ∈ es, deIgnored p.2 = true) (inOrder : Bool → List Der → Except DeErr (List Dat)) (c : Bool) (e : DeErr) :
    structOfE inOrder (Ty.deFieldE fs) (structEnd fs) (.map c l) = .error e ↔ StructFault fs es e := by
  have hm : ∀ {n : Str}, n ∈ fs.map (fun p => p.1) → ∃ t, (n, t) ∈ fs := by
    intro n hn
    obtain ⟨⟨m, t⟩, h, rfl⟩ := List.mem_map.1 hn
    exact ⟨t, h⟩
  have hk : ∀ {n d}, Ty.deFieldE fs n d ≠ none → ∃ t, (n, t) ∈ fs := by
    intro n d hn
    apply hm
    apply Classical.byContradiction
    intro h; exact hn (deFieldE_none.2 h)
  have mem : ∀ {n t}, (n, t) ∈ fs → n ∈ fs.map (fun f => f.1) := fun h => List.mem_map.2 ⟨_, h, rfl⟩
  rw [structOfE]
  constructor
  · intro h
    cases hs : structLoop (Ty.deFieldE fs) l [] with
    | error e' =>
      rw [hs] at h
      cases h
      obtain ⟨pre, n, d, post, acc', x, h0, h1, h2, h3⟩ := (structLoop_error hl hi).1 hs
      obtain ⟨t, hf⟩ := hk (n := n) (d := d) (by rw [h2]; simp)
      obtain ⟨h4, h5⟩ := loopRel_fine nd h1
      have h5 := h5 n (mem hf)
      rw [got_none] at h5
      rcases h3 with ⟨h3, rfl⟩ | ⟨h3, rfl⟩
      · exact .duplicate h0 h4 hf (Classical.byContradiction fun hc => h5.2 hc h3)
      · rw [deFieldE_mem nd hf] at h2
        cases h2' : t.deE d with
        | ok y => rw [h2'] at h2; cases h2
        | error y => rw [h2'] at h2; cases h2; exact .entry h0 h4 hf (h5.1 h3) h2'
    | ok acc =>
      rw [hs] at h
      simp only at h
      obtain ⟨es', h1, h2⟩ := structLoop_ok.1 hs
      rw [hl] at h1; cases h1
      obtain ⟨h4, h5⟩ := loopRel_fine nd h2
      obtain ⟨pre, n, t, post, h6, h7, h8, h9, rfl⟩ := structEnd_error.1 h
      subst h6
      refine .missing h4 rfl ((h5 n (by simp)).1 h7) h8 ?_
      intro f hf
      rcases h9 f hf with h | h
      · left
        apply Classical.byContradiction
        intro hc
        exact h ((h5 f.1 (by simp only [List.map_append, List.mem_append]; exact .inl (List.mem_map.2 ⟨f, hf, rfl⟩))).2 hc)
      · exact .inr h
  · intro h
    cases h with
    | @duplicate pre n d post t h0 h1 h2 h3 =>
      obtain ⟨acc, h4⟩ := fine_loopRel nd (fun p hp => hi p (by rw [h0]; simp [hp])) h1
      obtain ⟨-, h5⟩ := loopRel_fine nd h4
      have h5 := h5 n (mem h2)
      rw [got_none] at h5
      rw [(structLoop_error hl hi).2 ⟨pre, n, d, post, acc, _, h0, h4, deFieldE_mem nd h2 d, .inl ⟨Classical.byContradiction fun hc => h5.1 hc h3, rfl⟩⟩]
    | @entry pre n d post t e h0 h1 h2 h3 h6 =>
      obtain ⟨acc, h4⟩ := fine_loopRel nd (fun p hp => hi p (by rw [h0]; simp [hp])) h1
      obtain ⟨-, h5⟩ := loopRel_fine nd h4
      have h5 := h5 n (mem h2)
      rw [got_none] at h5
      rw [(structLoop_error hl hi).2 ⟨pre, n, d, post, acc, _, h0, h4, deFieldE_mem nd h2 d, .inr ⟨h5.2 h3, h6⟩⟩]
    | @missing pre n t post h1 h0 h2 h3 h6 =>
      obtain ⟨acc, h4⟩ := fine_loopRel nd hi h1
      obtain ⟨-, h5⟩ := loopRel_fine nd h4
      rw [structLoop_ok.2 ⟨es, hl, h4⟩]
      simp only
      refine structEnd_error.2 ⟨pre, n, t, post, h0, (h5 n (by rw [h0]; simp)).2 h2, h3, ?_, rfl⟩
      intro f hf
      rcases h6 f hf with h | h
      · left
        intro hc
        exact (h5 f.1 (by rw [h0]; simp only [List.map_append, List.mem_append]; exact .inl (List.mem_map.2 ⟨f, hf, rfl⟩))).1 hc h
      · exact .inr h

/-- What a type reads depends only on what the deserializer does. -/
theorem deE_congr (t : Ty) (d e : Der) (h : ∀ a, d.visit a = e.visit a) (h' : d.ask .any = e.ask .any) : t.deE d = t.deE e := by
  cases t <;> try simp only [Ty.deE, deBoolE, deNumE, deCharE, deStringE, deBytesE, h]
  cases d; cases e
  simp only [Der.ask] at h'
  simp only [deValueE, h']

theorem composite_derE (t : Ty) (f : Composite T) (c : T) : t.deE (.mk f.ask) = t.deE (Value.mk (.composite f) c).der := by
  apply deE_congr
  · intro a
    by_cases ha : a = .newtypeStruct
    · subst ha
      cases f <;> simp [Value.der, Der.visit, Der.ask, ValueDef.ask, Composite.ask]
    · refine (visit_of_ask (e := .mk f.ask) ?_ (by exact composite_ask_self f a ha)).symm
      cases f <;> cases a <;> first | exact absurd rfl ha | rfl
  · simp [Value.der, Der.ask, ValueDef.ask]

end SV
