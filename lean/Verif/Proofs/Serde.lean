import Verif.Spec.Serde
import Verif.Proofs.Value
import Mathlib.Data.List.Forall2
/-
Proofs for the serializing half: `to_value`.
-/
namespace SV

variable {T : Type}

/-! ### Numbers -/

theorem holds_iff (t : NumTy) (n : Int) : t.Holds n ↔ t.lo ≤ n ∧ n < t.hi := by
  cases t <;> simp [NumTy.Holds, NumTy.signed, NumTy.bits, NumTy.lo, NumTy.hi]

theorem ofInt?_eq_some {t : NumTy} {n : Int} {m : Num} : Num.ofInt? t n = some m ↔ m.ty = t ∧ m.val = n := by
  unfold Num.ofInt?
  split
  · constructor
    · intro h; cases h; exact ⟨rfl, rfl⟩
    · rintro ⟨h1, h2⟩; cases m; simp only at h1 h2; subst h1; subst h2; rfl
  · constructor
    · intro h; cases h
    · rintro ⟨h1, h2⟩; subst h1; subst h2; rename_i hn; exact absurd ⟨m.ge, m.lt⟩ hn

theorem ofInt?_eq_none {t : NumTy} {n : Int} : Num.ofInt? t n = none ↔ ¬ t.Holds n := by
  unfold Num.ofInt?
  rw [holds_iff]
  split <;> simp_all

theorem lo_zero_iff (t : NumTy) : t.lo = 0 ↔ t.signed = false := by
  cases t <;> simp [NumTy.lo, NumTy.signed]

theorem repNum_iff {n : Num} {p : Primitive} : RepNum n p ↔ n.toPrim = p := by
  unfold Num.toPrim
  constructor
  · intro h
    cases h with
    | @unsigned u s same =>
      have h0 := (lo_zero_iff _).2 s
      rw [dif_pos h0]
      congr 1
      apply U128.ext'
      simp only [U128.ofNum]
      omega
    | @signed i s same =>
      have h0 : ¬ n.ty.lo = 0 := by rw [lo_zero_iff]; simp [s]
      rw [dif_neg h0]
      congr 1
      apply I128.ext'
      simp only [I128.ofNum]
      omega
  · intro h
    subst h
    split
    · rename_i h
      refine .unsigned ((lo_zero_iff _).1 h) ?_
      have := n.ge
      rw [h] at this
      simp only [U128.ofNum]
      omega
    · rename_i h
      rw [lo_zero_iff] at h
      exact .signed (by simpa using h) rfl

theorem num_ext {a b : Num} (h1 : a.ty = b.ty) (h2 : a.val = b.val) : a = b := by
  cases a; cases b; simp only at h1 h2; subst h1; subst h2; rfl

/-! ### Pointwise lists -/

/-- Relations between lists, given index by index, from the recursive form. -/
theorem pointwise_cons {A B : Type} {R : A → B → Prop} {a : A} {b : B} {as : List A} {bs : List B} :
    ((a :: as).length = (b :: bs).length ∧ ∀ (i : Nat) (x : A) (y : B), (a :: as)[i]? = some x → (b :: bs)[i]? = some y → R x y) ↔
    R a b ∧ as.length = bs.length ∧ ∀ (i : Nat) (x : A) (y : B), as[i]? = some x → bs[i]? = some y → R x y := by
  constructor
  · rintro ⟨h1, h2⟩
    exact ⟨h2 0 a b rfl rfl, by simpa using h1, fun i x y hx hy => h2 (i + 1) x y (by simpa using hx) (by simpa using hy)⟩
  · rintro ⟨h1, h2, h3⟩
    refine ⟨by simp [h2], fun i x y hx hy => ?_⟩
    cases i with
    | zero => simp at hx hy; subst hx; subst hy; exact h1
    | succ i => exact h3 i x y (by simpa using hx) (by simpa using hy)

theorem pointwise_forall₂ {A B : Type} {R : A → B → Prop} {as : List A} {bs : List B} :
    (as.length = bs.length ∧ ∀ (i : Nat) (x : A) (y : B), as[i]? = some x → bs[i]? = some y → R x y) ↔ List.Forall₂ R as bs := by
  induction as generalizing bs with
  | nil =>
    cases bs with
    | nil => simp
    | cons b bs => constructor
                   · rintro ⟨h, _⟩; cases h
                   · intro h; cases h
  | cons a as ih =>
    cases bs with
    | nil => constructor
             · rintro ⟨h, _⟩; cases h
             · intro h; cases h
    | cons b bs => rw [pointwise_cons, ih, List.forall₂_cons]

theorem byteList_iff {bs : List UInt8} {vs : List (Value Unit)} : ByteList bs vs ↔ vs = byteVals bs := by
  have : ByteList bs vs ↔ List.Forall₂ (fun b v => ∃ u : U128, u.val = b.toNat ∧ v = .mk (.primitive (.u128 u)) ()) bs vs := by
    rw [← pointwise_forall₂, ByteList, eq_comm (a := vs.length)]
  rw [this, byteVals]
  clear this
  induction bs generalizing vs with
  | nil => simp
  | cons b bs ih =>
    cases vs with
    | nil => simp
    | cons v vs =>
      refine List.forall₂_cons.trans ((and_congr_right fun _ => ih).trans ?_)
      simp only [List.map_cons, List.cons.injEq]
      refine and_congr ?_ Iff.rfl
      constructor
      · rintro ⟨u, hu, rfl⟩
        simp only [Value.u128]
        congr 3
        exact U128.ext' hu
      · rintro rfl
        exact ⟨.ofU8 b, rfl, rfl⟩

/-! ### `toValue` -/

theorem bind_ok {A B : Type} {x : Except SerErr A} {f : A → Except SerErr B} {b : B} : (x >>= f) = .ok b ↔ ∃ a, x = .ok a ∧ f a = .ok b := by
  cases x with
  | error e => simp [bind, Except.bind]
  | ok a => simp [bind, Except.bind]

theorem bind_error {A B : Type} {x : Except SerErr A} {f : A → Except SerErr B} {e : SerErr} :
    (x >>= f) = .error e ↔ x = .error e ∨ ∃ a, x = .ok a ∧ f a = .error e := by
  cases x with
  | error e => simp [bind, Except.bind]
  | ok a => simp [bind, Except.bind]

theorem toValues_ok {xs : List Ser} {vs : List (Value Unit)} : toValues xs = .ok vs ↔ List.Forall₂ (fun x v => x.toValue = .ok v) xs vs := by
  induction xs generalizing vs with
  | nil => cases vs <;> simp [toValues]
  | cons x xs ih =>
    rw [toValues]
    simp only [bind_ok, ih]
    constructor
    · rintro ⟨v, h1, w, h2, h3⟩
      cases h3
      exact .cons h1 h2
    · intro h
      cases h with
      | cons h1 h2 => exact ⟨_, h1, _, h2, rfl⟩

theorem toFields_ok {xs : List (Str × Ser)} {vs : List (Str × Value Unit)} :
    toFields xs = .ok vs ↔ List.Forall₂ (fun x v => x.1 = v.1 ∧ x.2.toValue = .ok v.2) xs vs := by
  induction xs generalizing vs with
  | nil => cases vs <;> simp [toFields]
  | cons x xs ih =>
    cases x with | mk k x =>
    rw [toFields]
    simp only [bind_ok, ih]
    constructor
    · rintro ⟨v, h1, w, h2, h3⟩
      cases h3
      exact .cons ⟨rfl, h1⟩ h2
    · intro h
      cases h with
      | @cons _ b _ _ h1 h2 =>
        cases b with | mk k' v =>
        obtain ⟨rfl, h1⟩ := h1
        exact ⟨_, h1, _, h2, rfl⟩

theorem toEntries_ok {xs : List (Ser × Ser)} {vs : List (Str × Value Unit)} :
    toEntries xs = .ok vs ↔ List.Forall₂ (fun x v => (∃ k, x.1.toValue = .ok k ∧ keyOf k = .ok v.1) ∧ x.2.toValue = .ok v.2) xs vs := by
  induction xs generalizing vs with
  | nil => cases vs <;> simp [toEntries]
  | cons x xs ih =>
    cases x with | mk k x =>
    rw [toEntries]
    simp only [bind_ok, ih]
    constructor
    · rintro ⟨k, h0, n, hn, v, h1, w, h2, h3⟩
      cases h3
      exact .cons ⟨⟨k, h0, hn⟩, h1⟩ h2
    · intro h
      cases h with
      | @cons _ b _ _ h1 h2 =>
        cases b with | mk k' v =>
        obtain ⟨⟨k, h0, hn⟩, h1⟩ := h1
        exact ⟨_, h0, _, hn, _, h1, _, h2, rfl⟩

theorem toValues_error {xs : List Ser} {e : SerErr} (h : toValues xs = .error e) : ∃ x ∈ xs, x.toValue = .error e := by
  induction xs with
  | nil => cases h
  | cons x xs ih =>
    rw [toValues] at h
    simp only [bind_error] at h
    rcases h with h | ⟨v, _, h | ⟨_, _, h⟩⟩
    · exact ⟨x, by simp, h⟩
    · obtain ⟨y, hy, h⟩ := ih h
      exact ⟨y, by simp [hy], h⟩
    · cases h

theorem toFields_error {xs : List (Str × Ser)} {e : SerErr} (h : toFields xs = .error e) : ∃ x ∈ xs, x.2.toValue = .error e := by
  induction xs with
  | nil => cases h
  | cons x xs ih =>
    cases x with | mk k x =>
    rw [toFields] at h
    simp only [bind_error] at h
    rcases h with h | ⟨v, _, h | ⟨_, _, h⟩⟩
    · exact ⟨(k, x), by simp, h⟩
    · obtain ⟨y, hy, h⟩ := ih h
      exact ⟨y, by simp [hy], h⟩
    · cases h

theorem toEntries_error {xs : List (Ser × Ser)} {e : SerErr} (h : toEntries xs = .error e) :
    ∃ x ∈ xs, x.1.toValue = .error e ∨ (∃ k, x.1.toValue = .ok k ∧ keyOf k = .error e) ∨ x.2.toValue = .error e := by
  induction xs with
  | nil => cases h
  | cons x xs ih =>
    cases x with | mk k x =>
    rw [toEntries] at h
    simp only [bind_error] at h
    rcases h with h | ⟨v, h1, h | ⟨n, _, h | ⟨w, _, h | ⟨_, _, h⟩⟩⟩⟩
    · exact ⟨(k, x), by simp, .inl h⟩
    · exact ⟨(k, x), by simp, .inr (.inl ⟨v, h1, h⟩)⟩
    · exact ⟨(k, x), by simp, .inr (.inr h)⟩
    · obtain ⟨y, hy, h⟩ := ih h
      exact ⟨y, by simp [hy], h⟩
    · cases h

/-- Induction over what `Serialize` implementations do. -/
theorem Ser.ind {P : Ser → Prop}
    (bool : ∀ b, P (.bool b)) (num : ∀ n, P (.num n)) (f32 : P .f32) (f64 : P .f64) (char : ∀ c, P (.char c)) (str : ∀ s, P (.str s))
    (bytes : ∀ b, P (.bytes b)) (none : P .none) (some : ∀ x, P x → P (.some x)) (unit : P .unit) (unitStruct : P .unitStruct)
    (unitVariant : ∀ n, P (.unitVariant n)) (newtypeStruct : ∀ x, P x → P (.newtypeStruct x)) (newtypeVariant : ∀ n x, P x → P (.newtypeVariant n x))
    (seq : ∀ xs, (∀ x ∈ xs, P x) → P (.seq xs)) (tuple : ∀ xs, (∀ x ∈ xs, P x) → P (.tuple xs)) (tupleStruct : ∀ xs, (∀ x ∈ xs, P x) → P (.tupleStruct xs))
    (tupleVariant : ∀ n xs, (∀ x ∈ xs, P x) → P (.tupleVariant n xs)) (map : ∀ es, (∀ e ∈ es, P e.1 ∧ P e.2) → P (.map es))
    (struct : ∀ fs, (∀ f ∈ fs, P f.2) → P (.struct fs)) (structVariant : ∀ n fs, (∀ f ∈ fs, P f.2) → P (.structVariant n fs)) (fail : ∀ msg, P (.fail msg)) :
    ∀ s, P s := by
  intro s
  refine Ser.rec (motive_1 := P) (motive_2 := fun l => ∀ x ∈ l, P x) (motive_3 := fun l => ∀ e ∈ l, P e.1 ∧ P e.2)
    (motive_4 := fun l => ∀ f ∈ l, P f.2) (motive_5 := fun e => P e.1 ∧ P e.2) (motive_6 := fun f => P f.2)
    bool num f32 f64 char str bytes none some unit unitStruct unitVariant newtypeStruct newtypeVariant seq tuple tupleStruct tupleVariant map struct structVariant fail
    ?_ ?_ ?_ ?_ ?_ ?_ ?_ ?_ s
  · simp
  · intro x l h1 h2; exact List.forall_mem_cons.2 ⟨h1, h2⟩
  · simp
  · intro x l h1 h2; exact List.forall_mem_cons.2 ⟨h1, h2⟩
  · simp
  · intro x l h1 h2; exact List.forall_mem_cons.2 ⟨h1, h2⟩
  · intro a b h1 h2; exact ⟨h1, h2⟩
  · intro a b h; exact h

theorem keyOf_ok {v : Value Unit} {s : Str} : keyOf v = .ok s ↔ KeyName v s := by
  constructor
  · intro h
    unfold keyOf at h
    split at h
    · cases h
      rename_i h
      cases v; simp only [Value.value] at h; subst h; exact .string _
    · cases h
      rename_i h
      cases v; simp only [Value.value] at h; subst h; exact .char _
    · cases h
  · intro h; cases h <;> rfl

theorem keyOf_error {v : Value Unit} {e : SerErr} : keyOf v = .error e ↔ e = .mapKey ∧ ∀ s, ¬ KeyName v s := by
  constructor
  · intro h
    refine ⟨?_, fun s hs => ?_⟩
    · unfold keyOf at h
      split at h <;> cases h
      rfl
    · rw [← keyOf_ok, h] at hs; cases hs
  · rintro ⟨rfl, h⟩
    cases hk : keyOf v with
    | ok s => exact absurd (keyOf_ok.1 hk) (h s)
    | error e =>
      unfold keyOf at hk
      split at hk <;> cases hk
      rfl

/-- `toValue` succeeds precisely with the value that represents the data. -/
theorem forall₂_imp_mem {A B : Type} {R S : A → B → Prop} {as : List A} {bs : List B} (h : List.Forall₂ R as bs) (f : ∀ a ∈ as, ∀ b, R a b → S a b) :
    List.Forall₂ S as bs := by
  induction h with
  | nil => exact .nil
  | cons h1 _ ih => exact .cons (f _ (by simp) _ h1) (ih fun a ha => f a (by simp [ha]))

theorem toValue_stands (s : Ser) : ∀ v, s.toValue = .ok v → StandsFor s v := by
  induction s using Ser.ind with
  | bool b => intro v h; cases h; exact .bool b
  | num n => intro v h; cases h; exact .num (repNum_iff.2 rfl)
  | f32 => intro v h; cases h
  | f64 => intro v h; cases h
  | char b => intro v h; cases h; exact .char b
  | str b => intro v h; cases h; exact .str b
  | bytes b => intro v h; cases h; exact .bytes (byteList_iff.2 rfl)
  | none => intro v h; cases h; exact .none
  | some x ih =>
    intro v h
    rw [Ser.toValue] at h
    simp only [bind_ok] at h
    obtain ⟨w, h1, h2⟩ := h
    cases h2
    exact .some (ih _ h1)
  | unit => intro v h; cases h; exact .unit
  | unitStruct => intro v h; cases h; exact .unitStruct
  | unitVariant n => intro v h; cases h; exact .unitVariant n
  | newtypeStruct x ih =>
    intro v h
    rw [Ser.toValue] at h
    simp only [bind_ok] at h
    obtain ⟨w, h1, h2⟩ := h
    cases h2
    exact .newtypeStruct (ih _ h1)
  | newtypeVariant n x ih =>
    intro v h
    rw [Ser.toValue] at h
    simp only [bind_ok] at h
    obtain ⟨w, h1, h2⟩ := h
    cases h2
    exact .newtypeVariant (ih _ h1)
  | seq xs ih =>
    intro v h
    rw [Ser.toValue] at h
    simp only [bind_ok, toValues_ok] at h
    obtain ⟨w, h1, h2⟩ := h
    cases h2
    obtain ⟨a, b⟩ := pointwise_forall₂.2 (forall₂_imp_mem h1 ih)
    exact .seq a b
  | tuple xs ih =>
    intro v h
    rw [Ser.toValue] at h
    simp only [bind_ok, toValues_ok] at h
    obtain ⟨w, h1, h2⟩ := h
    cases h2
    obtain ⟨a, b⟩ := pointwise_forall₂.2 (forall₂_imp_mem h1 ih)
    exact .tuple a b
  | tupleStruct xs ih =>
    intro v h
    rw [Ser.toValue] at h
    simp only [bind_ok, toValues_ok] at h
    obtain ⟨w, h1, h2⟩ := h
    cases h2
    obtain ⟨a, b⟩ := pointwise_forall₂.2 (forall₂_imp_mem h1 ih)
    exact .tupleStruct a b
  | tupleVariant n xs ih =>
    intro v h
    rw [Ser.toValue] at h
    simp only [bind_ok, toValues_ok] at h
    obtain ⟨w, h1, h2⟩ := h
    cases h2
    obtain ⟨a, b⟩ := pointwise_forall₂.2 (forall₂_imp_mem h1 ih)
    exact .tupleVariant a b
  | map es ih =>
    intro v h
    rw [Ser.toValue] at h
    simp only [bind_ok, toEntries_ok] at h
    obtain ⟨fs, h1, h2⟩ := h
    cases h2
    obtain ⟨a, b⟩ := pointwise_forall₂.2 h1
    have hmem : ∀ (i : Nat) (e : Ser × Ser), es[i]? = some e → e ∈ es := fun i e h => List.mem_of_getElem? h
    have fsmap : (fs.map fun p => (p.1, p.2)) = fs := by simp
    simp only [Value.namedComposite, Composite.mkNamed, fsmap]
    refine .map a (fun i => match es[i]? with
      | some e => match e.1.toValue with
        | .ok v => v
        | .error _ => .bool true
      | none => .bool true) ?_ ?_ ?_
    · intro i e f he hf
      obtain ⟨⟨k, hk, _⟩, _⟩ := b i e f he hf
      simp only [he, hk]
      exact (ih e (hmem i e he)).1 _ hk
    · intro i e f he hf
      obtain ⟨⟨k, hk, hn⟩, _⟩ := b i e f he hf
      simp only [he, hk]
      exact keyOf_ok.1 hn
    · intro i e f he hf
      obtain ⟨_, hv⟩ := b i e f he hf
      exact (ih e (hmem i e he)).2 _ hv
  | struct es ih =>
    intro v h
    rw [Ser.toValue] at h
    simp only [bind_ok, toFields_ok] at h
    obtain ⟨fs, h1, h2⟩ := h
    cases h2
    have fsmap : (fs.map fun p => (p.1, p.2)) = fs := by simp
    simp only [Value.namedComposite, Composite.mkNamed, fsmap]
    obtain ⟨a, b⟩ := pointwise_forall₂.2 (forall₂_imp_mem h1 (S := fun e f => StandsFor e.2 f.2) fun e he f h => ih e he _ h.2)
    refine .struct ?_ b
    clear a b
    induction h1 with
    | nil => rfl
    | cons h1 h2 ih' => simp [h1.1, ih' (fun f hf => ih f (by simp [hf])) (by simp)]
  | structVariant n es ih =>
    intro v h
    rw [Ser.toValue] at h
    simp only [bind_ok, toFields_ok] at h
    obtain ⟨fs, h1, h2⟩ := h
    cases h2
    obtain ⟨a, b⟩ := pointwise_forall₂.2 (forall₂_imp_mem h1 (S := fun e f => StandsFor e.2 f.2) fun e he f h => ih e he _ h.2)
    refine .structVariant ?_ b
    clear a b
    induction h1 with
    | nil => rfl
    | cons h1 h2 ih' => simp [h1.1, ih' (fun f hf => ih f (by simp [hf]))]
  | fail => intro v h; cases h

theorem stands_toValue {s : Ser} {v : Value Unit} (h : StandsFor s v) : s.toValue = .ok v := by
  induction h with
  | bool b => rfl
  | num h => rw [Ser.toValue, repNum_iff.1 h]; rfl
  | char c => rfl
  | str s => rfl
  | bytes h => rw [byteList_iff.1 h]; rfl
  | none => rfl
  | some h ih => rw [Ser.toValue, ih]; rfl
  | unit => rfl
  | unitStruct => rfl
  | unitVariant n => rfl
  | newtypeStruct h ih => rw [Ser.toValue, ih]; rfl
  | newtypeVariant h ih => rw [Ser.toValue, ih]; rfl
  | seq len sub ih => rw [Ser.toValue, toValues_ok.2 (pointwise_forall₂.1 ⟨len, ih⟩)]; rfl
  | tuple len sub ih => rw [Ser.toValue, toValues_ok.2 (pointwise_forall₂.1 ⟨len, ih⟩)]; rfl
  | tupleStruct len sub ih => rw [Ser.toValue, toValues_ok.2 (pointwise_forall₂.1 ⟨len, ih⟩)]; rfl
  | tupleVariant len sub ih => rw [Ser.toValue, toValues_ok.2 (pointwise_forall₂.1 ⟨len, ih⟩)]; rfl
  | @map es fs len keyVal key name sub ih1 ih2 =>
    rw [Ser.toValue, toEntries_ok.2 (pointwise_forall₂.1 ⟨len, fun i e f he hf =>
      ⟨⟨keyVal i, ih1 i e f he hf, keyOf_ok.2 (name i e f he hf)⟩, ih2 i e f he hf⟩⟩)]
    have fsmap : (fs.map fun p => (p.1, p.2)) = fs := by simp
    simp only [bind, Except.bind, Value.namedComposite, Composite.mkNamed, fsmap]
  | @struct es fs names sub ih =>
    have len : es.length = fs.length := by simpa using congrArg List.length names
    rw [Ser.toValue, toFields_ok.2 (pointwise_forall₂.1 ⟨len, fun i e f he hf => ⟨?_, ih i e f he hf⟩⟩)]
    · have fsmap : (fs.map fun p => (p.1, p.2)) = fs := by simp
      simp only [bind, Except.bind, Value.namedComposite, Composite.mkNamed, fsmap]
    · have := congrArg (fun l => l[i]?) names
      simpa [he, hf] using this
  | @structVariant n es fs names sub ih =>
    have len : es.length = fs.length := by simpa using congrArg List.length names
    rw [Ser.toValue, toFields_ok.2 (pointwise_forall₂.1 ⟨len, fun i e f he hf => ⟨?_, ih i e f he hf⟩⟩)]
    · rfl
    · have := congrArg (fun l => l[i]?) names
      simpa [he, hf] using this

theorem toValue_ok_iff {s : Ser} {v : Value Unit} : s.toValue = .ok v ↔ StandsFor s v := ⟨toValue_stands s v, stands_toValue⟩

/-- An error has a reason. -/
theorem toValue_rejected (s : Ser) : ∀ e, s.toValue = .error e → Rejected s e := by
  induction s using Ser.ind with
  | bool b => intro v h; cases h
  | num n => intro v h; cases h
  | f32 => intro v h; cases h; exact .f32
  | f64 => intro v h; cases h; exact .f64
  | char b => intro v h; cases h
  | str b => intro v h; cases h
  | bytes b => intro v h; cases h
  | none => intro v h; cases h
  | some x ih =>
    intro e h
    rw [Ser.toValue] at h
    simp only [bind_error] at h
    rcases h with h | ⟨_, _, h⟩
    · exact .some (ih _ h)
    · cases h
  | unit => intro v h; cases h
  | unitStruct => intro v h; cases h
  | unitVariant n => intro v h; cases h
  | newtypeStruct x ih =>
    intro e h
    rw [Ser.toValue] at h
    simp only [bind_error] at h
    rcases h with h | ⟨_, _, h⟩
    · exact .newtypeStruct (ih _ h)
    · cases h
  | newtypeVariant n x ih =>
    intro e h
    rw [Ser.toValue] at h
    simp only [bind_error] at h
    rcases h with h | ⟨_, _, h⟩
    · exact .newtypeVariant (ih _ h)
    · cases h
  | seq xs ih =>
    intro e h
    rw [Ser.toValue] at h
    simp only [bind_error] at h
    rcases h with h | ⟨_, _, h⟩
    · obtain ⟨x, hx, h⟩ := toValues_error h
      exact .seq hx (ih x hx _ h)
    · cases h
  | tuple xs ih =>
    intro e h
    rw [Ser.toValue] at h
    simp only [bind_error] at h
    rcases h with h | ⟨_, _, h⟩
    · obtain ⟨x, hx, h⟩ := toValues_error h
      exact .tuple hx (ih x hx _ h)
    · cases h
  | tupleStruct xs ih =>
    intro e h
    rw [Ser.toValue] at h
    simp only [bind_error] at h
    rcases h with h | ⟨_, _, h⟩
    · obtain ⟨x, hx, h⟩ := toValues_error h
      exact .tupleStruct hx (ih x hx _ h)
    · cases h
  | tupleVariant n xs ih =>
    intro e h
    rw [Ser.toValue] at h
    simp only [bind_error] at h
    rcases h with h | ⟨_, _, h⟩
    · obtain ⟨x, hx, h⟩ := toValues_error h
      exact .tupleVariant hx (ih x hx _ h)
    · cases h
  | map es ih =>
    intro e h
    rw [Ser.toValue] at h
    simp only [bind_error] at h
    rcases h with h | ⟨_, _, h⟩
    · obtain ⟨⟨k, x⟩, hx, h | ⟨v, hv, h⟩ | h⟩ := toEntries_error h
      · exact .mapKey hx ((ih _ hx).1 _ h)
      · obtain ⟨rfl, hn⟩ := keyOf_error.1 h
        exact .key hx (toValue_stands _ _ hv) hn
      · exact .mapVal hx ((ih _ hx).2 _ h)
    · cases h
  | struct xs ih =>
    intro e h
    rw [Ser.toValue] at h
    simp only [bind_error] at h
    rcases h with h | ⟨_, _, h⟩
    · obtain ⟨⟨k, x⟩, hx, h⟩ := toFields_error h
      exact .struct hx (ih _ hx _ h)
    · cases h
  | structVariant n xs ih =>
    intro e h
    rw [Ser.toValue] at h
    simp only [bind_error] at h
    rcases h with h | ⟨_, _, h⟩
    · obtain ⟨⟨k, x⟩, hx, h⟩ := toFields_error h
      exact .structVariant hx (ih _ hx _ h)
    · cases h
  | fail msg => intro v h; cases h; exact .fail msg

theorem forall₂_mem_left {A B : Type} {R : A → B → Prop} {as : List A} {bs : List B} (h : List.Forall₂ R as bs) {a : A} (ha : a ∈ as) : ∃ b, R a b := by
  induction h with
  | nil => cases ha
  | cons h1 _ ih =>
    cases ha with
    | head => exact ⟨_, h1⟩
    | tail _ ha => exact ih ha

/-- A reason is an error. -/
theorem rejected_not_ok {s : Ser} {e : SerErr} (h : Rejected s e) : ∀ v, s.toValue ≠ .ok v := by
  induction h with
  | f32 => intro v h; cases h
  | f64 => intro v h; cases h
  | fail => intro v h; cases h
  | key mem rep bad =>
    intro v h
    rw [Ser.toValue] at h
    simp only [bind_ok, toEntries_ok] at h
    obtain ⟨fs, h, _⟩ := h
    obtain ⟨f, ⟨⟨k, hk, hn⟩, _⟩⟩ := forall₂_mem_left h mem
    rw [stands_toValue rep] at hk
    cases hk
    exact bad _ (keyOf_ok.1 hn)
  | some h ih => intro v h; rw [Ser.toValue] at h; simp only [bind_ok] at h; obtain ⟨w, h, _⟩ := h; exact ih _ h
  | newtypeStruct h ih => intro v h; rw [Ser.toValue] at h; simp only [bind_ok] at h; obtain ⟨w, h, _⟩ := h; exact ih _ h
  | newtypeVariant h ih => intro v h; rw [Ser.toValue] at h; simp only [bind_ok] at h; obtain ⟨w, h, _⟩ := h; exact ih _ h
  | seq mem h ih =>
    intro v h; rw [Ser.toValue] at h; simp only [bind_ok, toValues_ok] at h; obtain ⟨w, h, _⟩ := h
    obtain ⟨b, h⟩ := forall₂_mem_left h mem; exact ih _ h
  | tuple mem h ih =>
    intro v h; rw [Ser.toValue] at h; simp only [bind_ok, toValues_ok] at h; obtain ⟨w, h, _⟩ := h
    obtain ⟨b, h⟩ := forall₂_mem_left h mem; exact ih _ h
  | tupleStruct mem h ih =>
    intro v h; rw [Ser.toValue] at h; simp only [bind_ok, toValues_ok] at h; obtain ⟨w, h, _⟩ := h
    obtain ⟨b, h⟩ := forall₂_mem_left h mem; exact ih _ h
  | tupleVariant mem h ih =>
    intro v h; rw [Ser.toValue] at h; simp only [bind_ok, toValues_ok] at h; obtain ⟨w, h, _⟩ := h
    obtain ⟨b, h⟩ := forall₂_mem_left h mem; exact ih _ h
  | mapKey mem h ih =>
    intro v h; rw [Ser.toValue] at h; simp only [bind_ok, toEntries_ok] at h; obtain ⟨w, h, _⟩ := h
    obtain ⟨b, ⟨⟨k, hk, _⟩, _⟩⟩ := forall₂_mem_left h mem; exact ih _ hk
  | mapVal mem h ih =>
    intro v h; rw [Ser.toValue] at h; simp only [bind_ok, toEntries_ok] at h; obtain ⟨w, h, _⟩ := h
    obtain ⟨b, ⟨_, h⟩⟩ := forall₂_mem_left h mem; exact ih _ h
  | struct mem h ih =>
    intro v h; rw [Ser.toValue] at h; simp only [bind_ok, toFields_ok] at h; obtain ⟨w, h, _⟩ := h
    obtain ⟨b, ⟨_, h⟩⟩ := forall₂_mem_left h mem; exact ih _ h
  | structVariant mem h ih =>
    intro v h; rw [Ser.toValue] at h; simp only [bind_ok, toFields_ok] at h; obtain ⟨w, h, _⟩ := h
    obtain ⟨b, ⟨_, h⟩⟩ := forall₂_mem_left h mem; exact ih _ h

end SV
