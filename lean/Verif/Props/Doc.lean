import Verif.Proofs.DocRefused
import Verif.Props.Serde
/-
C65: reading values from documents of self-describing formats.
-/
namespace SV

/-- A document is read as a `Value` just as described by `DocValue`. -/
theorem C65_value (strict : Bool) (d : Der) (doc : Doc) (h : Shows strict d doc) (v : Value Unit) : deValue d = some v ↔ DocValue strict doc v :=
  value_shows doc d h v

/-- A document is read as a `Composite` just as described by `DocComposite`. -/
theorem C65_composite (strict : Bool) (d : Der) (doc : Doc) (h : Shows strict d doc) (c : Composite Unit) : deComposite d = some c ↔ DocComposite strict doc c :=
  composite_shows doc d h c

/-- Reading fails precisely if there is one of the reasons `DocRefused` in the document: a floating point number, a malformed place, a key or name that is not like a string, contents of an enum that are
not like a composite, or a map that begins with `__bitvec__values__` and is not a bit sequence. -/
theorem C65_refused (strict : Bool) (d : Der) (doc : Doc) (h : Shows strict d doc) :
    (deValue d = none ↔ DocRefused strict doc) ∧ (deComposite d = none ↔ DocNoComposite strict doc) := by
  constructor
  · constructor
    · intro hn
      rcases value_or_refused (strict := strict) doc with ⟨v, hv⟩ | hr
      · rw [(C65_value strict d doc h v).2 hv] at hn; cases hn
      · exact hr
    · intro hr
      cases hd : deValue d with
      | none => rfl
      | some v => exact (value_not_refused hr v ((C65_value strict d doc h v).1 hd)).elim
  · constructor
    · intro hn
      rcases composite_or_not (strict := strict) doc with ⟨v, hv⟩ | hr
      · rw [(C65_composite strict d doc h v).2 hv] at hn; cases hn
      · exact hr
    · intro hr
      cases hd : deComposite d with
      | none => rfl
      | some v => exact (composite_not_no hr v ((C65_composite strict d doc h v).1 hd)).elim

theorem mem_of_forall₂_left {A B : Type} {S : A → B → Prop} {as : List A} {bs : List B} (h : List.Forall₂ S as bs) {a : A} (ha : a ∈ as) : ∃ b ∈ bs, S a b := by
  induction h with
  | nil => cases ha
  | cons h1 _ ih => cases ha with
    | head => exact ⟨_, List.mem_cons_self, h1⟩
    | tail _ ha => obtain ⟨b, hb, h⟩ := ih ha; exact ⟨b, List.mem_cons_of_mem _ hb, h⟩

theorem mem_of_forall₂_right {A B : Type} {S : A → B → Prop} {as : List A} {bs : List B} (h : List.Forall₂ S as bs) {b : B} (hb : b ∈ bs) : ∃ a ∈ as, S a b := by
  induction h with
  | nil => cases hb
  | cons h1 _ ih => cases hb with
    | head => exact ⟨_, List.mem_cons_self, h1⟩
    | tail _ hb => obtain ⟨a, ha, h⟩ := ih hb; exact ⟨a, List.mem_cons_of_mem _ ha, h⟩

theorem docLast_cons {e : Doc × Doc} {l : List (Doc × Doc)} {name : Str} {x : Doc} :
    DocLast (e :: l) name x ↔ DocLast l name x ∨ ((∀ p ∈ l, ¬ DocName p.1 name) ∧ DocName e.1 name ∧ e.2 = x) := by
  constructor
  · rintro ⟨pre, k, post, he, hk, hp⟩
    cases pre with
    | nil => cases he; exact .inr ⟨hp, hk, rfl⟩
    | cons q pre => cases he; exact .inl ⟨pre, k, post, rfl, hk, hp⟩
  · rintro (⟨pre, k, post, rfl, hk, hp⟩ | ⟨h1, h2, rfl⟩)
    · exact ⟨e :: pre, k, post, rfl, hk, hp⟩
    · exact ⟨[], e.1, l, rfl, h2, h1⟩

theorem last_shows {strict : Bool} {ds : List (Der × Der)} {es : List (Doc × Doc)}
    (h : List.Forall₂ (fun e x => Shows strict e.1 x.1 ∧ Shows strict e.2 x.2) ds es) (name : Str) :
    (∀ x, LastEntry ds name x → ∃ y, DocLast es name y ∧ Shows strict x y) ∧ (∀ y, DocLast es name y → ∃ x, LastEntry ds name x ∧ Shows strict x y) := by
  induction h with
  | nil =>
    constructor
    · rintro x ⟨pre, k, post, he, _⟩; simp at he
    · rintro x ⟨pre, k, post, he, _⟩; simp at he
  | @cons e f ds es h1 h2 ih =>
    constructor
    · intro x hx
      rcases lastEntry_cons.1 hx with hx | ⟨ha, hb, rfl⟩
      · obtain ⟨y, hy, hs⟩ := ih.1 x hx
        exact ⟨y, docLast_cons.2 (.inl hy), hs⟩
      · refine ⟨f.2, docLast_cons.2 (.inr ⟨?_, (deString_shows h1.1).1 hb, rfl⟩), h1.2⟩
        intro p hp hn
        obtain ⟨q, hq, hs⟩ := mem_of_forall₂_right h2 hp
        exact ha q hq ((deString_shows hs.1).2 hn)
    · intro y hy
      rcases docLast_cons.1 hy with hy | ⟨ha, hb, rfl⟩
      · obtain ⟨x, hx, hs⟩ := ih.2 y hy
        exact ⟨x, lastEntry_cons.2 (.inl hx), hs⟩
      · refine ⟨e.2, lastEntry_cons.2 (.inr ⟨?_, (deString_shows h1.1).2 hb, rfl⟩), h1.2⟩
        intro p hp hn
        obtain ⟨q, hq, hs⟩ := mem_of_forall₂_left h2 hp
        exact ha q hq ((deString_shows hs.1).1 hn)

/-- A document is read as a `Variant` just as described by `DocVariant`. -/
theorem C65_variant (strict : Bool) (d : Der) (doc : Doc) (h : Shows strict d doc) (v : Variant Unit) : deVariant d = some v ↔ DocVariant strict doc v := by
  obtain ⟨n, c⟩ := v
  cases doc with
  | map es =>
    obtain ⟨ds, h1, h2⟩ := shows_map h
    rw [C47_map d strict ds (h1 .any trivial)]
    constructor
    · rintro ⟨ha, ⟨x, hx, hn⟩, ⟨y, hy, hc⟩⟩
      obtain ⟨x', hx', hs⟩ := (last_shows h2 _).1 x hx
      obtain ⟨y', hy', hs'⟩ := (last_shows h2 _).1 y hy
      refine .map ?_ hx' ((deString_shows hs).1 hn) hy' ((C65_composite strict y y' hs' c).1 hc)
      intro e he
      obtain ⟨q, hq, hs⟩ := mem_of_forall₂_right h2 he
      rcases ha q hq with ⟨h3, m, h4⟩ | ⟨h3, m, h4⟩
      · exact .inl ⟨(deString_shows hs.1).1 h3, m, (deString_shows hs.2).1 h4⟩
      · exact .inr ⟨(deString_shows hs.1).1 h3, m, (C65_composite _ _ _ hs.2 _).1 h4⟩
    · intro hv
      cases hv with
      | map ha hx' hn hy' hc =>
        obtain ⟨x, hx, hs⟩ := (last_shows h2 _).2 _ hx'
        obtain ⟨y, hy, hs'⟩ := (last_shows h2 _).2 _ hy'
        refine ⟨?_, ⟨x, hx, (deString_shows hs).2 hn⟩, ⟨y, hy, (C65_composite strict y _ hs' c).2 hc⟩⟩
        intro e he
        obtain ⟨q, hq, hs⟩ := mem_of_forall₂_left h2 he
        rcases ha q hq with ⟨h3, m, h4⟩ | ⟨h3, m, h4⟩
        · exact .inl ⟨(deString_shows hs.1).2 h3, m, (deString_shows hs.2).2 h4⟩
        · exact .inr ⟨(deString_shows hs.1).2 h3, m, (C65_composite _ _ _ hs.2 _).2 h4⟩
  | enum x y =>
    cases h with
    | @enum _ e f acc _ _ h name sub =>
      simp only [deVariant, Der.visit, h .any trivial]
      constructor
      · intro hv
        cases h1 : deString e with
        | none => rw [h1] at hv; cases hv
        | some m =>
          rw [h1] at hv
          cases h2 : deComposite f with
          | none => rw [h2] at hv; cases hv
          | some g => rw [h2] at hv; cases hv; exact .enum ((deString_shows name).1 h1) ((C65_composite _ _ _ sub _).1 h2)
      · intro hv
        cases hv with
        | enum h1 h2 => rw [(deString_shows name).2 h1, (C65_composite _ _ _ sub _).2 h2]
  | some x =>
    cases h with
    | @some _ e _ h sub =>
      simp only [deVariant, Der.visit, h .any trivial]
      constructor
      · intro hv
        cases h1 : deValue e with
        | none => rw [h1] at hv; cases hv
        | some m => rw [h1] at hv; cases hv; exact .some ((C65_value _ _ _ sub _).1 h1)
      · intro hv
        cases hv with
        | some h1 => rw [(C65_value _ _ _ sub _).2 h1]
  | none =>
    cases h with
    | none h =>
      simp only [deVariant, Der.visit, h .any trivial]
      constructor
      · intro hv; cases hv; exact .none
      · intro hv; cases hv; rfl
  | unit | bool | num | float | char | str | bytes | newtype | seq | bad =>
    cases h
    have h0 := ‹∀ a : Hint, a.Plain → d.ask a = _› .any trivial
    simp only [deVariant, Der.visit, h0]
    exact ⟨(by intro h; cases h), (by intro h; cases h)⟩

theorem acceptNum_u8 {n : Num} {b : UInt8} : (∃ m, acceptNum .u8 n = some m ∧ m.toU8 = b) ↔ n.val = b.toNat ∧ n.ty.bits < 128 := by
  have toU8 : ∀ m : Num, m.ty = .u8 → (m.toU8 = b ↔ m.val = b.toNat) := by
    intro m ht
    have h1 := m.ge; have h2 := m.lt
    rw [ht] at h1 h2
    simp only [NumTy.lo, NumTy.hi] at h1 h2
    have hb := b.toNat_lt
    rw [← UInt8.toNat_inj, Num.toU8, UInt8.toNat_ofNat']
    omega
  unfold acceptNum
  by_cases ht : n.ty = .u8
  · rw [if_pos ht, ht]
    have : (NumTy.bits .u8 < 128) := by decide
    simp only [Option.some.injEq, exists_eq_left', this, and_true]
    exact toU8 n ht
  · rw [if_neg ht]
    by_cases hw : n.ty = .u128 ∨ n.ty = .i128
    · rw [if_pos ⟨hw, by decide, by decide⟩]
      have : ¬ n.ty.bits < 128 := by rcases hw with hw | hw <;> rw [hw] <;> decide
      simp [this]
    · rw [if_neg (fun h => hw h.1)]
      have hbits : n.ty.bits < 128 := by
        revert hw
        cases n.ty <;> decide
      simp only [hbits, and_true]
      constructor
      · rintro ⟨m, hm, hb⟩
        obtain ⟨h1, h2⟩ := ofInt?_eq_some.1 hm
        rw [← h2]
        exact (toU8 m h1).1 hb
      · intro hv
        have hb := b.toNat_lt
        refine ⟨⟨.u8, n.val, by simp only [NumTy.lo]; omega, by simp only [NumTy.hi]; omega⟩, ofInt?_eq_some.2 ⟨rfl, rfl⟩, (toU8 _ rfl).2 hv⟩

/-- A document is read as a `Primitive` just as described by `DocPrimitive`. -/
theorem C65_primitive (strict : Bool) (d : Der) (doc : Doc) (h : Shows strict d doc) (p : Primitive) : dePrimitive d = some p ↔ DocPrimitive doc p := by
  cases doc with
  | bool | char | str =>
    cases h
    have h0 := ‹∀ a : Hint, a.Plain → d.ask a = _› .any trivial
    simp only [dePrimitive, Der.visit, h0]
    constructor
    · intro h; cases h; constructor
    · intro h; cases h; rfl
  | num =>
    cases h with | num h =>
    simp only [dePrimitive, Der.visit, h .any trivial]
    constructor
    · intro h; cases h; exact .num (repNum_iff.2 rfl)
    · intro h; cases h with | num h => rw [repNum_iff.1 h]
  | bytes bs =>
    cases h with | bytes h =>
    simp only [dePrimitive, Der.visit, h .any trivial, bytes32?]
    constructor
    · intro h
      split at h
      · next hl => cases h; exact .bytes (b := ⟨bs, hl⟩)
      · cases h
    · intro h
      cases h with
      | @bytes b => rw [dif_pos b.len]
  | seq xs =>
    obtain ⟨ds, h1, h2⟩ := shows_seq h
    simp only [dePrimitive, Der.visit, h1 .any trivial]
    have elem : ∀ (e : Der) (x : Doc), Shows strict e x → ∀ y : UInt8, (∃ m, deNum .u8 e = some m ∧ m.toU8 = y) ↔ ∃ n : Num, x = .num n ∧ n.val = y.toNat ∧ n.ty.bits < 128 := by
      intro e x hs y
      cases x with
      | num n =>
        cases hs with | num hs =>
        simp only [deNum, Der.visit, hs (.num .u8) trivial]
        rw [acceptNum_u8]
        simp
      | unit | bool | float | char | str | bytes | none | some | newtype | seq | map | enum | bad =>
        cases hs
        have h0 := ‹∀ a : Hint, a.Plain → e.ask a = _› (.num .u8) trivial
        simp only [deNum, Der.visit, h0]
        simp
    have key : ∀ ys : List UInt8, (∃ ns, allOf (deNum .u8) ds = some ns ∧ ns.map Num.toU8 = ys) ↔
        List.Forall₂ (fun x (y : UInt8) => ∃ n : Num, x = .num n ∧ n.val = y.toNat ∧ n.ty.bits < 128) xs ys := by
      intro ys
      rw [← forall₂_through h2 (P := fun e y => ∃ m, deNum .u8 e = some m ∧ m.toU8 = y) (fun a b _ _ hs c => elem a b hs c)]
      simp only [allOf_iff]
      clear h2 h1 h
      induction ds generalizing ys with
      | nil => cases ys <;> simp
      | cons d ds ih =>
        cases ys with
        | nil => simp
        | cons y ys =>
          rw [List.forall₂_cons, ← ih]
          constructor
          · rintro ⟨ns, hn, hm⟩
            cases hn with
            | cons h1 h2 => cases hm; exact ⟨⟨_, h1, rfl⟩, _, h2, rfl⟩
          · rintro ⟨⟨m, h1, rfl⟩, ns, h2, rfl⟩
            exact ⟨m :: ns, .cons h1 h2, rfl⟩
    constructor
    · intro hp
      cases ha : allOf (deNum .u8) ds with
      | none => rw [ha] at hp; cases hp
      | some ns =>
        rw [ha] at hp
        simp only [bytes32?] at hp
        split at hp
        · next hl =>
          cases hp
          obtain ⟨h3, h4⟩ := pointwise_forall₂.2 ((key _).1 ⟨ns, ha, rfl⟩)
          exact .seq (b := ⟨_, hl⟩) (h3.trans hl) h4
        · cases hp
    · intro hp
      cases hp with
      | @seq b _ len sub =>
        obtain ⟨ns, h3, h4⟩ := (key b.bytes).2 (pointwise_forall₂.1 ⟨len.trans b.len.symm, sub⟩)
        rw [h3]
        simp only [h4, bytes32?, dif_pos b.len]
  | unit | float | none | some | newtype | map | enum | bad =>
    cases h
    have h0 := ‹∀ a : Hint, a.Plain → d.ask a = _› .any trivial
    simp only [dePrimitive, Der.visit, h0]
    exact ⟨(by intro h; cases h), (by intro h; cases h)⟩

/-- Integers of any type are read from integers in documents that fit, except that 128 bit numbers are read only by 128 bit types (this is serde's part). -/
theorem C65_numbers (strict : Bool) (d : Der) (doc : Doc) (h : Shows strict d doc) (t : NumTy) (m : Num) :
    deNum t d = some m ↔ m.ty = t ∧ ∃ n : Num, doc = .num n ∧ m.val = n.val ∧ (n.ty.bits = 128 → t.bits = 128) := by
  cases doc with
  | num n =>
    cases h with | num h =>
    simp only [deNum, Der.visit, h (.num t) trivial, acceptNum]
    by_cases ht : n.ty = t
    · rw [if_pos ht]
      constructor
      · intro hm; cases hm; exact ⟨ht, _, rfl, rfl, by rw [ht]; exact id⟩
      · rintro ⟨h1, k, hk, h2, -⟩
        cases hk
        obtain ⟨a, b, _, _⟩ := m
        obtain ⟨a', b', _, _⟩ := n
        simp only at h1 h2 ht
        subst h1 h2 ht
        rfl
    · rw [if_neg ht]
      by_cases hw : (n.ty = .u128 ∨ n.ty = .i128) ∧ t ≠ .u128 ∧ t ≠ .i128
      · rw [if_pos hw]
        constructor
        · intro h; cases h
        · rintro ⟨-, k, hk, -, hb⟩
          cases hk
          obtain ⟨h1, h2, h3⟩ := hw
          have h4 : n.ty.bits = 128 := by rcases h1 with h1 | h1 <;> rw [h1] <;> rfl
          have := hb h4
          exfalso
          revert h2 h3 this
          cases t <;> decide
      · rw [if_neg hw, ofInt?_eq_some]
        constructor
        · rintro ⟨h1, h2⟩
          refine ⟨h1, n, rfl, h2, ?_⟩
          intro h4
          revert hw h4
          cases n.ty <;> cases t <;> decide
        · rintro ⟨h1, k, hk, h2, -⟩
          cases hk
          exact ⟨h1, h2⟩
  | unit | bool | float | char | str | bytes | none | some | newtype | seq | map | enum | bad =>
    cases h
    have h0 := ‹∀ a : Hint, a.Plain → d.ask a = _› (.num t) trivial
    simp only [deNum, Der.visit, h0]
    simp

/-- Every document has a deserializer that presents it, so nothing above is vacuous. -/
theorem C65_documents (strict : Bool) (doc : Doc) : Shows strict (doc.der strict) doc := shows_der strict doc

/-- `{ "a": null, "b": [1, -2] }`, in JSON. -/
example : deValue ((Doc.map [(.str "a".toList, .unit), (.str "b".toList, .seq [.num ⟨.u64, 1, by decide, by decide⟩, .num ⟨.i64, -2, by decide, by decide⟩])]).der true) =
    some (.mk (.composite (.named [("a".toList, .mk (.composite (.unnamed [])) ()),
      ("b".toList, .mk (.composite (.unnamed [.u128 ⟨1, by decide⟩, .i128 ⟨-2, by decide, by decide⟩])) ())])) ()) := by rfl

/-- `{ "__bitvec__values__": [true], "x": 1 }` is refused by formats that insist on the end of maps, and otherwise is a bit sequence. -/
example (strict : Bool) : deValue ((Doc.map [(.str "__bitvec__values__".toList, .seq [.bool true]), (.str ['x'], .unit)]).der strict) =
    if strict then none else some (.mk (.bitSequence [true]) ()) := by
  cases strict <;> rfl

/-- `[1.5]` is refused. -/
example (strict : Bool) : deValue ((Doc.seq [.float]).der strict) = none :=
  (C65_refused strict _ _ (C65_documents strict _)).1.2 (.seq (by simp) .float)

end SV
