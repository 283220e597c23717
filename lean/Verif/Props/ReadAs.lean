import Verif.Proofs.ReadAs
/-
Property C81: what `from_value` reads, from the types and the values alone.
-/
namespace SV

variable {T : Type}

theorem readAs_of_de : ∀ (n : Nat) (t : Ty) (_ : sizeOf t ≤ n) (v : Value T) (d : Dat), t.de v.der = some d → ReadAs t v d := by
  intro n
  induction n with
  | zero => intro t ht; cases t <;> simp at ht
  | succ n ih =>
    intro t ht v d h
    have mem : ∀ {ts : List Ty} {i : Nat} {u : Ty}, sizeOf ts ≤ n → ts[i]? = some u → sizeOf u ≤ n := by
      intro ts i u h1 h2
      have := List.sizeOf_lt_of_mem (List.mem_of_getElem? h2)
      omega
    have memF : ∀ {fs : List (Str × Ty)} {i : Nat} {f : Str × Ty}, sizeOf fs ≤ n → fs[i]? = some f → sizeOf f.2 ≤ n := by
      intro fs i f h1 h2
      have := List.sizeOf_lt_of_mem (List.mem_of_getElem? h2)
      obtain ⟨a, b⟩ := f
      simp only [Prod.mk.sizeOf_spec] at this ⊢
      omega
    cases t with
    | bool => obtain ⟨b, h', rfl⟩ := (C52_bool v d).1 h; exact .bool h'
    | num t =>
      rw [Ty.de, Option.map_eq_some_iff] at h
      obtain ⟨m, h, rfl⟩ := h
      obtain ⟨h1, h2⟩ := (C43_numbers t v m).1 h
      exact .num h2 h1
    | char =>
      obtain ⟨c, h' | h', rfl⟩ := (C52_char v d).1 h
      · exact .char h'
      · exact .charOfString h'
    | string =>
      obtain ⟨s, rfl, h' | ⟨c, rfl, h'⟩ | ⟨b, h1, h'⟩⟩ := (C52_string v d).1 h
      · exact .string h'
      · exact .stringOfChar h'
      · exact .stringOf256 h1 h'
    | bytes =>
      obtain ⟨bs, rfl, ⟨c, h1, h2, h3⟩ | ⟨s, h', rfl⟩ | ⟨c, h', rfl⟩ | ⟨b, rfl, h'⟩⟩ := (C52_bytes v d).1 h
      · exact .bytes h1 h2 h3
      · exact .bytesOfString h'
      · exact .bytesOfChar h'
      · exact .bytesOf256 h'
    | unit => obtain ⟨c, h1, h2, rfl⟩ := (C52_unit v d).1.1 h; exact .unit h1 h2
    | unitStruct => obtain ⟨c, h1, h2, rfl⟩ := (C52_unit v d).2.1 h; exact .unitStruct h1 h2
    | option t =>
      have ht : sizeOf t ≤ n := by simp at ht; omega
      rcases (C44_option t v d).1 h with ⟨c, rfl, rfl⟩ | ⟨c, w, x, rfl, h', rfl⟩
      · exact .none rfl
      · exact .some rfl (ih t ht w x h')
    | newtype t =>
      have ht' : sizeOf t ≤ n := by simp at ht; omega
      cases v with | mk e c =>
      cases e with
      | composite f =>
        rw [C50_newtype t _ (.inl ⟨f, c, rfl⟩), Option.map_eq_some_iff] at h
        obtain ⟨x, h, rfl⟩ := h
        exact .newtype (.inl ⟨f, rfl⟩) (ih t ht' _ x h)
      | primitive p =>
        rw [C50_newtype t _ (.inr ⟨p, c, rfl⟩), Option.map_eq_some_iff] at h
        obtain ⟨x, h, rfl⟩ := h
        exact .newtype (.inr ⟨p, rfl⟩) (ih t ht' _ x h)
      | bitSequence b => rw [C50_bits] at h; cases h
      | variant w =>
        cases w with | mk m f =>
        have other : (∀ u, t ≠ .option u) → (∀ fs, t ≠ .struct fs) → ReadAs (.newtype t) (.mk (.variant (.mk m f)) c) d := by
          intro h1 h2
          rw [C50_variant t m f c h1 h2, Option.map_eq_some_iff] at h
          obtain ⟨x, h, rfl⟩ := h
          exact .newtypeVariant rfl h1 h2 (ih t ht' _ x h)
        by_cases h1 : ∃ u, t = .option u
        · obtain ⟨u, rfl⟩ := h1
          rw [C50_option] at h; cases h
        by_cases h2 : ∃ fs, t = .struct fs
        · obtain ⟨fs, rfl⟩ := h2
          rw [C50_variant_struct, Option.map_eq_some_iff] at h
          obtain ⟨x, h, rfl⟩ := h
          exact .newtypeFields rfl (ih _ ht' _ x h)
        · exact other (fun u hu => h1 ⟨u, hu⟩) (fun fs hf => h2 ⟨fs, hf⟩)
    | seq t =>
      have ht : sizeOf t ≤ n := by simp at ht; omega
      obtain ⟨c, ds, h1, ⟨-, h2, h3⟩, rfl⟩ := (C52_seq t v d).1 h
      refine .seq h1 (by simpa using h2) ?_
      intro i w x hw hx
      refine ih t ht w x (h3 i t w x ?_ hw hx)
      rw [List.getElem?_replicate, if_pos]
      exact (List.getElem?_eq_some_iff.1 hw).1
    | tuple ts =>
      have ht : sizeOf ts ≤ n := by simp at ht; omega
      obtain ⟨c, ds, h1, ⟨h2, h3, h4⟩, rfl⟩ := (C52_tuple ts v d).1.1 h
      exact .tuple h1 h2 h3 (fun i u w x a b c => ih u (mem ht a) w x (h4 i u w x a b c))
    | tupleStruct ts =>
      have ht : sizeOf ts ≤ n := by simp at ht; omega
      obtain ⟨c, ds, h1, ⟨h2, h3, h4⟩, rfl⟩ := (C52_tuple ts v d).2.1 h
      exact .tupleStruct h1 h2 h3 (fun i u w x a b c => ih u (mem ht a) w x (h4 i u w x a b c))
    | struct fs =>
      have ht : sizeOf fs ≤ n := by simp at ht; omega
      cases v with | mk e c =>
      cases e with
      | composite f =>
        cases f with
        | named ps =>
          obtain ⟨ds, rfl, h1, h2⟩ := (C49_by_name fs ps c d).1 h
          have h2' := fun i f x a b => fieldIs_iff.1 (h2 i f x a b)
          refine .structByName rfl h1.symm ?_ (fun i f x w a b m => ih f.2 (memF ht a) w x ((h2' i f x a b).2.1 w m)) (fun i f x a b => (h2' i f x a b).2.2)
          intro f hf
          obtain ⟨i, hi⟩ := List.mem_iff_getElem?.1 hf
          have hl : i < ds.length := h1 ▸ (List.getElem?_eq_some_iff.1 hi).1
          exact (h2' i f _ hi (List.getElem?_eq_getElem hl)).1
        | unnamed vs =>
          obtain ⟨ds, rfl, h1, h2, h3⟩ := (C49_in_order fs vs c d).1 h
          exact .structInOrder rfl h2 h1.symm (fun i f w x a b c => ih f.2 (memF ht a) w x (h3 i f w x a b c))
      | variant x => rw [C49_others fs _ (.inl ⟨x, c, rfl⟩)] at h; cases h
      | primitive x => rw [C49_others fs _ (.inr ⟨x, c, rfl⟩)] at h; cases h
      | bitSequence b =>
        rw [struct_bits, Option.map_eq_some_iff] at h
        obtain ⟨ds, h, rfl⟩ := h
        obtain ⟨h1, h2, h3⟩ := (deFields_bits b fs ds).1 h
        exact .structOfBits rfl h1 h2 h3
    | enum vs =>
      obtain ⟨m, f, ds, vt, pre, post, h1, rfl, h2, h3, rfl⟩ := (de_enum_iff vs v d v.context).1 h
      have hv : sizeOf vt < n := by
        have : sizeOf ((m, vt) : Str × VTy) < sizeOf (pre ++ (m, vt) :: post) := List.sizeOf_lt_of_mem (by simp)
        simp at this ht; omega
      cases vt with
      | unit =>
        obtain ⟨h3, rfl⟩ := h3
        obtain ⟨f', h4, h5, -⟩ := (C52_unit _ _).1.1 h3
        cases h4
        exact .enumUnit h1 h2 h5
      | newtype t =>
        obtain ⟨x, h3, rfl⟩ := h3
        exact .enumNewtype h1 h2 (ih t (by simp at hv; omega) _ x h3)
      | tuple ts => exact .enumTuple h1 h2 (ih (.tuple ts) (by simp at hv ⊢; omega) _ _ h3)
      | struct fs => exact .enumStruct h1 h2 (ih (.struct fs) (by simp at hv ⊢; omega) _ _ h3)
    | map chars t =>
      have ht : sizeOf t ≤ n := by simp at ht; omega
      obtain ⟨l, es, m, h1, h2, h3, h4, h5, rfl⟩ := (de_map_iff chars t v d).1 h
      exact .map h1 h2 h3 (fun i p e a b => ih t ht p.2 e.2 (h4 i p e a b)) h5
    | value =>
      rw [Ty.de, Option.map_eq_some_iff] at h
      obtain ⟨w, h, rfl⟩ := h
      exact .value ((C41_from_value v w).1 h)

theorem de_of_readAs {t : Ty} {v : Value T} {d : Dat} (h : ReadAs t v d) : t.de v.der = some d := by
  have value_eq : ∀ {v : Value T} {e}, v.value = e → ∃ c, v = .mk e c := by
    rintro ⟨e, c⟩ _ rfl; exact ⟨c, rfl⟩
  induction h with
  | bool h => exact (C52_bool _ _).2 ⟨_, h, rfl⟩
  | num ty h => subst ty; rw [Ty.de, (C43_numbers _ _ _).2 ⟨h, rfl⟩]; rfl
  | char h => exact (C52_char _ _).2 ⟨_, .inl h, rfl⟩
  | charOfString h => exact (C52_char _ _).2 ⟨_, .inr h, rfl⟩
  | string h => exact (C52_string _ _).2 ⟨_, rfl, .inl h⟩
  | stringOfChar h => exact (C52_string _ _).2 ⟨_, rfl, .inr (.inl ⟨_, rfl, h⟩)⟩
  | stringOf256 u h => exact (C52_string _ _).2 ⟨_, rfl, .inr (.inr ⟨_, u, h⟩)⟩
  | bytes h1 h2 h3 => exact (C52_bytes _ _).2 ⟨_, rfl, .inl ⟨_, h1, h2, h3⟩⟩
  | bytesOfString h => exact (C52_bytes _ _).2 ⟨_, rfl, .inr (.inl ⟨_, h, rfl⟩)⟩
  | bytesOfChar h => exact (C52_bytes _ _).2 ⟨_, rfl, .inr (.inr (.inl ⟨_, h, rfl⟩))⟩
  | bytesOf256 h => exact (C52_bytes _ _).2 ⟨_, rfl, .inr (.inr (.inr ⟨_, rfl, h⟩))⟩
  | unit h1 h2 => exact (C52_unit _ _).1.2 ⟨_, h1, h2, rfl⟩
  | unitStruct h1 h2 => exact (C52_unit _ _).2.2 ⟨_, h1, h2, rfl⟩
  | none h => obtain ⟨c, rfl⟩ := value_eq h; exact (C44_option _ _ _).2 (.inl ⟨c, rfl, rfl⟩)
  | some h _ ih => obtain ⟨c, rfl⟩ := value_eq h; exact (C44_option _ _ _).2 (.inr ⟨c, _, _, rfl, ih, rfl⟩)
  | newtype h _ ih =>
    rw [C50_newtype, ih]; · rfl
    rcases h with ⟨f, h⟩ | ⟨p, h⟩
    · obtain ⟨c, rfl⟩ := value_eq h; exact .inl ⟨f, c, rfl⟩
    · obtain ⟨c, rfl⟩ := value_eq h; exact .inr ⟨p, c, rfl⟩
  | @newtypeVariant _ _ x _ h h1 h2 _ ih =>
    obtain ⟨c, rfl⟩ := value_eq h
    cases x
    rw [C50_variant _ _ _ _ h1 h2, ih]; rfl
  | @newtypeFields fs v n f c d h _ ih =>
    obtain ⟨c', rfl⟩ := value_eq h
    rw [C50_variant_struct, ← composite_der (c := c'), composite_der (c := c), ih]; rfl
  | seq h len _ ih =>
    refine (C52_seq _ _ _).2 ⟨_, _, h, ⟨by simp, by simpa using len, ?_⟩, rfl⟩
    intro i t w x a b c
    rw [List.getElem?_replicate] at a
    split at a
    · cases a; exact ih i w x b c
    · cases a
  | tuple h size len _ ih => exact (C52_tuple _ _ _).1.2 ⟨_, _, h, ⟨size, len, ih⟩, rfl⟩
  | tupleStruct h size len _ ih => exact (C52_tuple _ _ _).2.2 ⟨_, _, h, ⟨size, len, ih⟩, rfl⟩
  | structByName h len once _ absent ih =>
    obtain ⟨c, rfl⟩ := value_eq h
    exact (C49_by_name _ _ _ _).2 ⟨_, rfl, len.symm, fun i f x a b => fieldIs_iff.2 ⟨once f (List.mem_of_getElem? a), fun w hw => ih i f x w a b hw, absent i f x a b⟩⟩
  | structInOrder h size len _ ih =>
    obtain ⟨c, rfl⟩ := value_eq h
    exact (C49_in_order _ _ _ _).2 ⟨_, rfl, len.symm, size, ih⟩
  | structOfBits h len bits absent =>
    obtain ⟨c, rfl⟩ := value_eq h
    rw [struct_bits, (deFields_bits _ _ _).2 ⟨len, bits, absent⟩]; rfl
  | @enumUnit pre post v n f h first empty =>
    exact (de_enum_iff _ _ _ v.context).2 ⟨n, f, [], .unit, pre, post, h, rfl, first, ⟨(C52_unit _ _).1.2 ⟨f, rfl, empty, rfl⟩, rfl⟩, rfl⟩
  | @enumNewtype pre post v n f t c d h first _ ih =>
    exact (de_enum_iff _ _ _ c).2 ⟨n, f, [d], .newtype t, pre, post, h, rfl, first, ⟨d, ih, rfl⟩, rfl⟩
  | @enumTuple pre post v n f ts c ds h first _ ih =>
    exact (de_enum_iff _ _ _ c).2 ⟨n, f, ds, .tuple ts, pre, post, h, rfl, first, ih, rfl⟩
  | @enumStruct pre post v n f fs c ds h first _ ih =>
    exact (de_enum_iff _ _ _ c).2 ⟨n, f, ds, .struct fs, pre, post, h, rfl, first, ih, rfl⟩
  | map h keys names _ all ih => exact (de_map_iff _ _ _ _).2 ⟨_, _, _, h, keys, names, ih, all, rfl⟩
  | value h => rw [Ty.de, (C41_from_value _ _).2 h]; rfl

/-! ### C81 -/

/-- C81: `from_value` reads a value as a type precisely if `ReadAs` relates them, and gives the data that it says. -/
theorem C81_reads (t : Ty) (v : Value T) (d : Dat) : t.de v.der = some d ↔ ReadAs t v d := ⟨readAs_of_de _ t (Nat.le_refl _) v d, de_of_readAs⟩

/-- C81: so it fails precisely on the values that are not related to any data. -/
theorem C81_fails (t : Ty) (v : Value T) : t.de v.der = none ↔ ∀ d, ¬ ReadAs t v d := by
  simp only [← C81_reads]
  cases t.de v.der <;> simp

/-- C81: what is read is never ambiguous. -/
theorem C81_one (t : Ty) (v : Value T) (d d' : Dat) (h : ReadAs t v d) (h' : ReadAs t v d') : d = d' := by
  rw [← C81_reads] at h h'
  exact Option.some.inj (h.symm.trans h')

/-! ### C81 is about something -/

/-- The rules put together by hand: a struct with a tuple, an absent `Option` and an enum, from a named composite with a further entry. -/
example : ReadAs (.struct [("a".toList, .tuple [.num .u8, .string]), ("b".toList, .option .bool), ("e".toList, .enum [("X".toList, .unit), ("Y".toList, .newtype (.seq .bool))])])
    (.mk (.composite (.named [("e".toList, .variant "Y".toList (.unnamed [.bool true])), ("z".toList, .bool false), ("a".toList, .unnamedComposite [exU 7, .char 'q'])])) ())
    (.list [.list [.num ⟨.u8, 7, by decide, by decide⟩, .str ['q']], .none, .enum "Y".toList [.list [.bool true]]]) := by
  refine .structByName rfl rfl (by decide) ?_ ?_
  · intro i f d w hf hd hw
    rcases i with _ | _ | _ | i
    · cases hf; cases hd
      have : w = .unnamedComposite [exU 7, .char 'q'] := by
        simp only [List.mem_cons, Prod.mk.injEq, List.not_mem_nil, or_false] at hw
        rcases hw with ⟨h, -⟩ | ⟨h, -⟩ | ⟨-, h⟩
        · exact absurd h (by decide)
        · exact absurd h (by decide)
        · exact h
      subst this
      refine .tuple (c := .unnamed [exU 7, .char 'q']) rfl rfl rfl ?_
      intro j t w d ht hw hd
      rcases j with _ | _ | j
      · cases ht; cases hw; cases hd; exact .num rfl rfl
      · cases ht; cases hw; cases hd; exact .stringOfChar rfl
      · cases ht
    · cases hf; cases hd
      simp only [List.mem_cons, Prod.mk.injEq, List.not_mem_nil, or_false] at hw
      rcases hw with ⟨h, -⟩ | ⟨h, -⟩ | ⟨h, -⟩ <;> exact absurd h (by decide)
    · cases hf; cases hd
      have : w = .variant "Y".toList (.unnamed [.bool true]) := by
        simp only [List.mem_cons, Prod.mk.injEq, List.not_mem_nil, or_false] at hw
        rcases hw with ⟨-, h⟩ | ⟨h, -⟩ | ⟨h, -⟩
        · exact h
        · exact absurd h (by decide)
        · exact absurd h (by decide)
      subst this
      refine .enumNewtype (pre := [("X".toList, .unit)]) (post := []) (f := .unnamed [.bool true]) (c := ()) rfl (by decide) ?_
      refine .seq (c := .unnamed [.bool true]) rfl rfl ?_
      intro j w d hw hd
      rcases j with _ | j
      · cases hw; cases hd; exact .bool rfl
      · cases hw
    · cases hf
  · intro i f d hf hd ha
    rcases i with _ | _ | _ | i
    · cases hf; exact (ha (by decide)).elim
    · cases hf; cases hd; exact ⟨⟨_, rfl⟩, rfl⟩
    · cases hf; exact (ha (by decide)).elim
    · cases hf

example : ReadAs (.struct [("__bitvec__values__".toList, .newtype .bool)]) (Value.bitSequence [true]) (.list [.list [.bool true]]) := (C81_reads _ _ _).1 rfl
example : ∀ d, ¬ ReadAs (.struct [("__bitvec__values__".toList, .newtype .bool)]) (Value.bitSequence [true, false]) d := (C81_fails _ _).1 rfl
example : ∀ d, ¬ ReadAs (.newtype (.option .bool)) (Value.variant "None".toList (.unnamed [])) d := (C81_fails _ _).1 rfl
example : ∀ d, ¬ ReadAs (.num .u8) (exU 256) d := (C81_fails _ _).1 rfl

end SV
