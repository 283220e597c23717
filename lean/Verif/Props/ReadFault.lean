import Verif.Proofs.ReadFault
/-
Property C82: the error of `from_value`, from the types and the values alone.
-/
namespace SV

variable {T : Type}

theorem properAll_getElem? {ts : List Ty} (h : Ty.ProperAll ts) : ∀ {i : Nat} {t : Ty}, ts[i]? = some t → t.Proper := by
  induction ts with
  | nil => simp
  | cons u ts ih =>
    intro i t ht
    cases i with
    | zero => cases ht; exact h.1
    | succ i => exact ih h.2 ht

theorem properVariants_mem {vs : List (Str × VTy)} (h : Ty.ProperVariants vs) : ∀ p ∈ vs, p.2.Proper := by
  induction vs with
  | nil => simp
  | cons q vs ih =>
    intro p hp
    rcases List.mem_cons.1 hp with rfl | hp
    · exact h.1
    · exact ih h.2 p hp

theorem readFault_bool {v : Value T} {e : DeErr} (h : Ty.bool.deE v.der = .error e) : ReadFault .bool v e := by
  obtain ⟨h1, u, h2, rfl⟩ := (C73_bool v e).1 h
  exact .bool h1 h2

theorem readFault_seq {t : Ty} (ht : t.Proper) (ih : ∀ (w : Value T) e, t.deE w.der = .error e → ReadFault t w e) {v : Value T} {e : DeErr} (h : (Ty.seq t).deE v.der = .error e) :
    ReadFault (.seq t) v e := by
  rcases (C73_seq t v e).1 h with ⟨c, h1, pre, w, post, h2, h3, h4⟩ | ⟨⟨b, h1⟩, rfl⟩ | ⟨⟨p, h1⟩, u, h2, rfl⟩
  · exact .seq h1 h2 (fun x hx => readable_of_ok ht (h3 x hx)) (ih w e h4)
  · exact .seqBits h1
  · exact .seqOther h1 h2

theorem readFault_value : ∀ (n : Nat) (v : Value T) (_ : sizeOf v ≤ n) (e : DeErr), deValueE v.der = .error e → ReadFault .value v e := by
  intro n
  induction n with
  | zero => intro v hv; cases v; simp at hv
  | succ n ih =>
    intro v hv e h
    rcases (C73_value v e).1 h with ⟨x, ps, h1, h2⟩ | ⟨h1, c, h2, pre, w, post, h3, h4, h5⟩
    · exact .valueBits h1 (readFault_seq (by simp [Ty.Proper]) (fun w e h => readFault_bool h) h2)
    · refine .value h1 h2 h3 ?_ (ih w ?_ e h5)
      · intro x hx
        refine readable_of_ok (by simp [Ty.Proper]) ?_
        obtain ⟨y, hy⟩ := h4 x hx
        have hy : deValueE x.der = .ok y := hy
        exact ⟨.value y, by rw [Ty.deE, hy]; rfl⟩
      · have hm : w ∈ c.vals := by rw [h3]; simp
        have hc : sizeOf c < sizeOf v := by
          cases v with | mk d x =>
          cases d with
          | composite f => cases h2; simp; omega
          | variant y => cases y; cases h2; simp; omega
          | bitSequence b => cases h2
          | primitive p => cases h2
        have hw : sizeOf w < sizeOf c := by
          cases c with
          | named fs =>
            obtain ⟨p, hp, rfl⟩ := List.mem_map.1 hm
            have := List.sizeOf_lt_of_mem hp
            obtain ⟨a, b⟩ := p
            simp at this ⊢; omega
          | unnamed vs =>
            have := List.sizeOf_lt_of_mem (show w ∈ vs from hm)
            simp; omega
        omega

theorem readFault_of_deE : ∀ (n : Nat) (t : Ty) (_ : sizeOf t ≤ n) (_ : t.Proper) (v : Value T) (e : DeErr), t.deE v.der = .error e → ReadFault t v e := by
  intro n
  induction n with
  | zero => intro t ht; cases t <;> simp at ht
  | succ n ih =>
    intro t ht hp v e h
    have mem : ∀ {ts : List Ty} {i : Nat} {u : Ty}, sizeOf ts ≤ n → ts[i]? = some u → sizeOf u ≤ n := by
      intro ts i u h1 h2
      have := List.sizeOf_lt_of_mem (List.mem_of_getElem? h2)
      omega
    have memF : ∀ {fs : List (Str × Ty)} {f : Str × Ty}, sizeOf fs ≤ n → f ∈ fs → sizeOf f.2 ≤ n := by
      intro fs f h1 h2
      have := List.sizeOf_lt_of_mem h2
      obtain ⟨a, b⟩ := f
      simp only [Prod.mk.sizeOf_spec] at this ⊢
      omega
    cases t with
    | bool => exact readFault_bool h
    | num t =>
      obtain ⟨h1, u, h2, rfl⟩ := (C73_num t v e).1 h
      split
      · next hc =>
        obtain ⟨k, hk⟩ := Option.ne_none_iff_exists'.1 hc.1
        exact .wide hk (h1 k hk) hc.2 h2
      · next hc =>
        refine .num (fun k hk => ⟨h1 k hk, ?_, ?_⟩) h2
        · rintro rfl; exact hc ⟨by simp [hk], .inl rfl⟩
        · rintro rfl; exact hc ⟨by simp [hk], .inr rfl⟩
    | char =>
      rcases (C73_char v e).1 h with ⟨s, h1, h2, rfl⟩ | ⟨h1, h2, u, h3, rfl⟩
      · exact .charString h1 h2
      · exact .char h1 h2 h3
    | string =>
      rcases (C73_string v e).1 h with ⟨b, h1, h2, rfl⟩ | ⟨h1, h2, h3, h4, u, h5, rfl⟩
      · exact .string256 h1 h2
      · exact .string h1 h2 h3 h4 h5
    | bytes =>
      rcases (C73_bytes v e).1 h with ⟨r, h1, rfl⟩ | ⟨h1, u, h2, rfl⟩
      · exact .bytesRefused h1
      · exact .bytes h1 h2
    | unit =>
      rcases (C73_unit v e).1 h with ⟨r, h1, rfl⟩ | ⟨⟨p, h1⟩, u, h2, rfl⟩
      · exact .unitRefused h1
      · exact .unit h1 h2
    | unitStruct =>
      rcases (C73_unit_struct v e).1 h with ⟨r, h1, rfl⟩ | ⟨⟨p, h1⟩, u, h2, rfl⟩
      · exact .unitStructRefused h1
      · exact .unitStruct h1 h2
    | option t =>
      have hs : sizeOf t ≤ n := by simp at ht; omega
      rw [Ty.Proper] at hp
      rcases (C73_option t v e).1 h with ⟨x, h1, h2⟩ | ⟨h1, h2, u, h3, rfl⟩
      · exact .some h1 (ih t hs hp x e h2)
      · exact .option h1 h2 h3
    | newtype t =>
      have hs : sizeOf t ≤ n := by simp at ht; omega
      rw [Ty.Proper] at hp
      by_cases hv : ∃ m f, v.value = .variant (.mk m f)
      · obtain ⟨m, f, hv⟩ := hv
        cases v with | mk d c =>
        cases hv
        by_cases h1 : ∃ u, t = .option u
        · obtain ⟨u, rfl⟩ := h1
          have := (C73_newtype_variant _ m f c e).1 h
          simp only at this
          subst this
          exact .newtypeOption rfl
        by_cases h2 : ∃ fs, t = .struct fs
        · obtain ⟨fs, rfl⟩ := h2
          have := (C73_newtype_variant _ m f c e).1 h
          exact .newtypeFields rfl (ih _ hs hp _ e this)
        · have := (C73_newtype_variant t m f c e).1 h
          refine .newtypeVariant rfl (fun u hu => h1 ⟨u, hu⟩) (fun fs hf => h2 ⟨fs, hf⟩) (ih t hs hp _ e ?_)
          cases t <;> first | exact this | exact (h1 ⟨_, rfl⟩).elim | exact (h2 ⟨_, rfl⟩).elim
      · rcases (C73_newtype t v e (fun x hx => hv (by cases x; exact ⟨_, _, hx⟩))).1 h with ⟨⟨b, h1⟩, rfl⟩ | ⟨h1, h2⟩
        · exact .newtypeBits h1
        · refine .newtype ?_ (ih t hs hp v e h2)
          cases v with | mk d c =>
          cases d with
          | composite f => exact .inl ⟨f, rfl⟩
          | primitive p => exact .inr ⟨p, rfl⟩
          | bitSequence b => exact (h1 b rfl).elim
          | variant x => cases x; exact (hv ⟨_, _, rfl⟩).elim
    | seq t =>
      have hs : sizeOf t ≤ n := by simp at ht; omega
      rw [Ty.Proper] at hp
      exact readFault_seq hp (ih t hs hp) h
    | tuple ts =>
      have hs : sizeOf ts ≤ n := by simp at ht; omega
      rw [Ty.Proper] at hp
      rcases (C73_tuple ts v e).1 h with ⟨r, h1, rfl⟩ | ⟨c, h1, h2, h3⟩ | ⟨⟨p, h1⟩, u, h2, rfl⟩
      · exact .tupleRefused h1
      · obtain ⟨i, t, w, h4, h5, h6, h7⟩ := firstError_zip.1 h3
        exact .tuple h1 h2 h4 h5 (fun j u x hj hu hx => readable_of_ok (properAll_getElem? hp hu) (h6 j u x hj hu hx)) (ih t (mem hs h4) (properAll_getElem? hp h4) w e h7)
      · exact .tupleOther h1 h2
    | tupleStruct ts =>
      have hs : sizeOf ts ≤ n := by simp at ht; omega
      rw [Ty.Proper] at hp
      rcases (C73_tuple_struct ts v e).1 h with ⟨r, h1, rfl⟩ | ⟨c, h1, h2, h3⟩ | ⟨⟨p, h1⟩, u, h2, rfl⟩
      · exact .tupleStructRefused h1
      · obtain ⟨i, t, w, h4, h5, h6, h7⟩ := firstError_zip.1 h3
        exact .tupleStruct h1 h2 h4 h5 (fun j u x hj hu hx => readable_of_ok (properAll_getElem? hp hu) (h6 j u x hj hu hx)) (ih t (mem hs h4) (properAll_getElem? hp h4) w e h7)
      · exact .tupleStructOther h1 h2
    | struct fs =>
      have hs : sizeOf fs ≤ n := by simp at ht; omega
      rw [Ty.Proper] at hp
      have pf : ∀ {i : Nat} {f}, fs[i]? = some f → f.2.Proper := fun hi => properFields_mem hp.2 _ (List.mem_of_getElem? hi)
      cases v with | mk d c =>
      cases d with
      | composite f =>
        cases f with
        | named ps =>
          rcases (structFault_iff hp.2).1 ((C73_struct fs hp.1 ps c e).1 h) with
            ⟨pre, m, w, post, t, rfl, h1, h2, h3, rfl⟩ | ⟨pre, m, w, post, t, rfl, h1, h2, h3, h4⟩ | ⟨m, h1, h2, rfl⟩
          · exact .structTwice rfl h1 h2 h3
          · exact .structEntry rfl h1 h2 h3 (ih t (memF hs h2) (properFields_mem hp.2 _ h2) w e h4)
          · exact .structMissing rfl h1 h2
        | unnamed vs =>
          rcases (C73_struct_unnamed fs vs c e).1 h with h | ⟨h1, h2, rfl⟩
          · obtain ⟨i, f, w, h4, h5, h6, h7⟩ := firstError_zip.1 h
            exact .structInOrder rfl h4 h5 (fun j u x hj hu hx => readable_of_ok (pf hu) (h6 j u x hj hu hx)) (ih f.2 (memF hs (List.mem_of_getElem? h4)) (pf h4) w e h7)
          · exact .structShort rfl (fun j u x hu hx => readable_of_ok (pf hu) (noError_zip.1 h1 j u x hu hx)) h2
      | bitSequence b =>
        rcases (structBitsFault_iff hp.1 hp.2).1 ((C73_struct_bits fs hp.1 b c e).1 h) with ⟨t, h1, h2⟩ | ⟨m, h1, h2, rfl⟩
        · exact .structBits rfl h1 h2
        · exact .structBitsMissing rfl h1 h2
      | variant x =>
        obtain ⟨u, h1, rfl⟩ := (C73_struct_others fs _ (.inl ⟨x, rfl⟩) e).1 h
        exact .structOther (.inl ⟨x, rfl⟩) h1
      | primitive p =>
        obtain ⟨u, h1, rfl⟩ := (C73_struct_others fs _ (.inr ⟨p, rfl⟩) e).1 h
        exact .structOther (.inr ⟨p, rfl⟩) h1
    | enum vs =>
      rw [Ty.Proper] at hp
      rcases (enumE_iff vs v v.context e).1 h with ⟨m, f, h1, h2, rfl⟩ | ⟨m, f, vt, pre, post, h1, rfl, h2, h3⟩ | ⟨⟨b, h1⟩, rfl⟩ | ⟨h1, u, h2, rfl⟩
      · exact .enumUnknown h1 h2
      · have hv : sizeOf vt < n := by
          have : sizeOf ((m, vt) : Str × VTy) < sizeOf (pre ++ (m, vt) :: post) := List.sizeOf_lt_of_mem (by simp)
          simp at this ht; omega
        have hvp := properVariants_mem hp (m, vt) (by simp)
        cases vt with
        | unit =>
          rcases (C73_unit _ e).1 h3 with ⟨r, h4, rfl⟩ | ⟨⟨p, h4⟩, -⟩
          · have key : ∀ r, Refuses (Value.mk (.composite f) v.context) .unit r → r = .nonEmptyUnit ∧ f.vals ≠ [] := by
              intro r h4
              cases h4 with
              | bitsUnit h => cases h
              | unit h5 h6 => cases h5; exact ⟨rfl, h6⟩
            obtain ⟨rfl, h6⟩ := key r h4
            exact .enumUnit h1 h2 h6
          · cases h4
        | newtype t =>
          simp only [VTy.Proper] at hvp
          exact .enumNewtype h1 h2 (ih t (by simp at hv; omega) hvp _ e h3)
        | tuple ts =>
          simp only [VTy.Proper] at hvp
          exact .enumTuple h1 h2 (ih (.tuple ts) (by simp at hv ⊢; omega) (by rw [Ty.Proper]; exact hvp) _ e h3)
        | struct fs =>
          simp only [VTy.Proper] at hvp
          exact .enumStruct h1 h2 (ih (.struct fs) (by simp at hv ⊢; omega) (by rw [Ty.Proper]; exact hvp) _ e h3)
      · exact .enumBits h1
      · exact .enumOther h1 h2
    | map chars t =>
      have hs : sizeOf t ≤ n := by simp at ht; omega
      rw [Ty.Proper] at hp
      rcases (C73_map chars t v e).1 h with ⟨ps, h1, pre, ⟨k, w⟩, post, h2, h3, h4⟩ | ⟨vs, h1, rfl⟩ | ⟨⟨b, h1⟩, rfl⟩ | ⟨⟨p, h1⟩, u, h2, rfl⟩
      · have fine : ∀ p ∈ pre, (chars = true → p.1.length = 1) ∧ Readable t p.2 := by
          intro p hp'
          obtain ⟨y, hy⟩ := h3 p hp'
          unfold mapEntryE at hy
          split at hy
          · cases hy
          · next hc => exact ⟨fun hch => Decidable.byContradiction fun hl => hc ⟨hch, hl⟩, readable_of_ok hp ⟨y, hy⟩⟩
        unfold mapEntryE at h4
        split at h4
        · next hc =>
          cases h4
          obtain ⟨rfl, hk⟩ := hc
          exact .mapKey h1 h2 (fun p hp => ⟨(fine p hp).1 rfl, (fine p hp).2⟩) hk
        · next hc =>
          exact .mapValue h1 h2 fine (fun hch => Decidable.byContradiction fun hl => hc ⟨hch, hl⟩) (ih t hs hp w e h4)
      · exact .mapUnnamed h1
      · exact .mapBits h1
      · exact .mapOther h1 h2
    | value =>
      rw [Ty.deE, mapE_error] at h
      exact readFault_value _ v (Nat.le_refl _) e h

theorem deE_of_readFault {t : Ty} {v : Value T} {e : DeErr} (h : ReadFault t v e) : t.Proper → t.deE v.der = .error e := by
  have value_eq : ∀ {v : Value T} {d}, v.value = d → ∃ c, v = .mk d c := by
    rintro ⟨e, c⟩ _ rfl; exact ⟨c, rfl⟩
  induction h with
  | bool h s => intro _; exact (C73_bool _ _).2 ⟨h, _, s, rfl⟩
  | charString h l => intro _; exact (C73_char _ _).2 (.inl ⟨_, h, l, rfl⟩)
  | char h1 h2 s => intro _; exact (C73_char _ _).2 (.inr ⟨h1, h2, _, s, rfl⟩)
  | string256 h u => intro _; exact (C73_string _ _).2 (.inl ⟨_, h, u, rfl⟩)
  | string h1 h2 h3 h4 s => intro _; exact (C73_string _ _).2 (.inr ⟨h1, h2, h3, h4, _, s, rfl⟩)
  | wide h f ty s =>
    intro _
    refine (C73_num _ _ _).2 ⟨fun k hk => ?_, _, s, ?_⟩
    · rw [h] at hk; cases hk; exact f
    · rw [if_pos ⟨by rw [h]; simp, ty⟩]
  | num h s =>
    intro _
    refine (C73_num _ _ _).2 ⟨fun k hk => (h k hk).1, _, s, ?_⟩
    rw [if_neg]
    rintro ⟨h1, h2⟩
    obtain ⟨k, hk⟩ := Option.ne_none_iff_exists'.1 h1
    rcases h2 with h2 | h2
    · exact (h k hk).2.1 h2
    · exact (h k hk).2.2 h2
  | bytesRefused h => intro _; exact (C73_bytes _ _).2 (.inl ⟨_, h, rfl⟩)
  | bytes h s => intro _; exact (C73_bytes _ _).2 (.inr ⟨h, _, s, rfl⟩)
  | unitRefused h => intro _; exact (C73_unit _ _).2 (.inl ⟨_, h, rfl⟩)
  | unit h s => intro _; exact (C73_unit _ _).2 (.inr ⟨⟨_, h⟩, _, s, rfl⟩)
  | unitStructRefused h => intro _; exact (C73_unit_struct _ _).2 (.inl ⟨_, h, rfl⟩)
  | unitStruct h s => intro _; exact (C73_unit_struct _ _).2 (.inr ⟨⟨_, h⟩, _, s, rfl⟩)
  | some h _ ih => intro hp; rw [Ty.Proper] at hp; exact (C73_option _ _ _).2 (.inl ⟨_, h, ih hp⟩)
  | option h1 h2 s => intro _; exact (C73_option _ _ _).2 (.inr ⟨h1, h2, _, s, rfl⟩)
  | newtypeBits h => intro _; exact (C73_newtype _ _ _ (by simp [h])).2 (.inl ⟨⟨_, h⟩, rfl⟩)
  | newtype h _ ih =>
    intro hp
    rw [Ty.Proper] at hp
    rcases h with ⟨f, h⟩ | ⟨p, h⟩
    · exact (C73_newtype _ _ _ (by simp [h])).2 (.inr ⟨by simp [h], ih hp⟩)
    · exact (C73_newtype _ _ _ (by simp [h])).2 (.inr ⟨by simp [h], ih hp⟩)
  | @newtypeVariant t v x e h h1 h2 _ ih =>
    intro hp
    rw [Ty.Proper] at hp
    obtain ⟨c, rfl⟩ := value_eq h
    cases x
    refine (C73_newtype_variant _ _ _ _ _).2 ?_
    have := ih hp
    cases t <;> first | exact this | exact (h1 _ rfl).elim | exact (h2 _ rfl).elim
  | @newtypeOption t v x h =>
    intro _
    obtain ⟨c, rfl⟩ := value_eq h
    cases x
    exact (C73_newtype_variant _ _ _ _ _).2 rfl
  | @newtypeFields fs v n f c e h _ ih =>
    intro hp
    rw [Ty.Proper] at hp
    obtain ⟨c', rfl⟩ := value_eq h
    refine (C73_newtype_variant _ _ _ _ _).2 ?_
    simp only
    rw [← composite_derE (c := c'), composite_derE (c := c)]
    exact ih hp
  | seq h split fine _ ih =>
    intro hp
    rw [Ty.Proper] at hp
    exact (C73_seq _ _ _).2 (.inl ⟨_, h, _, _, _, split, fun x hx => (readable_iff hp x).2 (fine x hx), ih hp⟩)
  | seqBits h => intro _; exact (C73_seq _ _ _).2 (.inr (.inl ⟨⟨_, h⟩, rfl⟩))
  | seqOther h s => intro _; exact (C73_seq _ _ _).2 (.inr (.inr ⟨⟨_, h⟩, _, s, rfl⟩))
  | tupleRefused h => intro _; exact (C73_tuple _ _ _).2 (.inl ⟨_, h, rfl⟩)
  | tuple h size ht hw fine _ ih =>
    intro hp
    rw [Ty.Proper] at hp
    exact (C73_tuple _ _ _).2 (.inr (.inl ⟨_, h, size, firstError_zip.2 ⟨_, _, _, ht, hw,
      fun j u x hj hu hx => (readable_iff (properAll_getElem? hp hu) x).2 (fine j u x hj hu hx), ih (properAll_getElem? hp ht)⟩⟩))
  | tupleOther h s => intro _; exact (C73_tuple _ _ _).2 (.inr (.inr ⟨⟨_, h⟩, _, s, rfl⟩))
  | tupleStructRefused h => intro _; exact (C73_tuple_struct _ _ _).2 (.inl ⟨_, h, rfl⟩)
  | tupleStruct h size ht hw fine _ ih =>
    intro hp
    rw [Ty.Proper] at hp
    exact (C73_tuple_struct _ _ _).2 (.inr (.inl ⟨_, h, size, firstError_zip.2 ⟨_, _, _, ht, hw,
      fun j u x hj hu hx => (readable_iff (properAll_getElem? hp hu) x).2 (fine j u x hj hu hx), ih (properAll_getElem? hp ht)⟩⟩))
  | tupleStructOther h s => intro _; exact (C73_tuple_struct _ _ _).2 (.inr (.inr ⟨⟨_, h⟩, _, s, rfl⟩))
  | structTwice h fine field twice =>
    intro hp
    rw [Ty.Proper] at hp
    obtain ⟨c, rfl⟩ := value_eq h
    exact (C73_struct _ hp.1 _ _ _).2 ((structFault_iff hp.2).2 (.inl ⟨_, _, _, _, _, rfl, fine, field, twice, rfl⟩))
  | structEntry h fine field once _ ih =>
    intro hp
    rw [Ty.Proper] at hp
    obtain ⟨c, rfl⟩ := value_eq h
    exact (C73_struct _ hp.1 _ _ _).2 ((structFault_iff hp.2).2 (.inr (.inl ⟨_, _, _, _, _, rfl, fine, field, once, ih (properFields_mem hp.2 _ field)⟩)))
  | structMissing h fine missing =>
    intro hp
    rw [Ty.Proper] at hp
    obtain ⟨c, rfl⟩ := value_eq h
    exact (C73_struct _ hp.1 _ _ _).2 ((structFault_iff hp.2).2 (.inr (.inr ⟨_, fine, missing, rfl⟩)))
  | structInOrder h hf hw fine _ ih =>
    intro hp
    rw [Ty.Proper] at hp
    obtain ⟨c, rfl⟩ := value_eq h
    exact (C73_struct_unnamed _ _ _ _).2 (.inl (firstError_zip.2 ⟨_, _, _, hf, hw,
      fun j u x hj hu hx => (readable_iff (properFields_mem hp.2 _ (List.mem_of_getElem? hu)) x).2 (fine j u x hj hu hx), ih (properFields_mem hp.2 _ (List.mem_of_getElem? hf))⟩))
  | structShort h fine short =>
    intro hp
    rw [Ty.Proper] at hp
    obtain ⟨c, rfl⟩ := value_eq h
    exact (C73_struct_unnamed _ _ _ _).2 (.inr ⟨noError_zip.2
      fun j u x hu hx => (readable_iff (properFields_mem hp.2 _ (List.mem_of_getElem? hu)) x).2 (fine j u x hu hx), short, rfl⟩)
  | structBits h field bad =>
    intro hp
    rw [Ty.Proper] at hp
    obtain ⟨c, rfl⟩ := value_eq h
    exact (C73_struct_bits _ hp.1 _ _ _).2 ((structBitsFault_iff hp.1 hp.2).2 (.inl ⟨_, field, bad⟩))
  | structBitsMissing h fine missing =>
    intro hp
    rw [Ty.Proper] at hp
    obtain ⟨c, rfl⟩ := value_eq h
    exact (C73_struct_bits _ hp.1 _ _ _).2 ((structBitsFault_iff hp.1 hp.2).2 (.inr ⟨_, fine, missing, rfl⟩))
  | structOther h s => intro _; exact (C73_struct_others _ _ h _).2 ⟨_, s, rfl⟩
  | @enumUnknown vs v n f h u => intro _; exact (enumE_iff _ _ v.context _).2 (.inl ⟨_, _, h, u, rfl⟩)
  | @enumUnit pre post v n f h first full =>
    intro _
    exact (enumE_iff _ _ v.context _).2 (.inr (.inl ⟨_, _, _, _, _, h, rfl, first, (C73_unit _ _).2 (.inl ⟨_, .unit (c := f) rfl full, rfl⟩)⟩))
  | @enumNewtype pre post v n f t c e h first _ ih =>
    intro hp
    rw [Ty.Proper] at hp
    exact (enumE_iff _ _ c _).2 (.inr (.inl ⟨_, _, _, _, _, h, rfl, first, ih (by simpa [VTy.Proper] using properVariants_mem hp (n, .newtype t) (by simp))⟩))
  | @enumTuple pre post v n f ts c e h first _ ih =>
    intro hp
    rw [Ty.Proper] at hp
    exact (enumE_iff _ _ c _).2 (.inr (.inl ⟨_, _, _, _, _, h, rfl, first, ih (by rw [Ty.Proper]; simpa [VTy.Proper] using properVariants_mem hp (n, .tuple ts) (by simp))⟩))
  | @enumStruct pre post v n f fs c e h first _ ih =>
    intro hp
    rw [Ty.Proper] at hp
    exact (enumE_iff _ _ c _).2 (.inr (.inl ⟨_, _, _, _, _, h, rfl, first, ih (by rw [Ty.Proper]; simpa [VTy.Proper] using properVariants_mem hp (n, .struct fs) (by simp))⟩))
  | @enumBits vs v b h => intro _; exact (enumE_iff _ _ v.context _).2 (.inr (.inr (.inl ⟨⟨_, h⟩, rfl⟩)))
  | @enumOther vs v u h s => intro _; exact (enumE_iff _ _ v.context _).2 (.inr (.inr (.inr ⟨h, _, s, rfl⟩)))
  | @mapKey t v l pre k w post h split fine bad =>
    intro hp
    rw [Ty.Proper] at hp
    refine (C73_map _ _ _ _).2 (.inl ⟨_, h, pre, (k, w), post, split, ?_, ?_⟩)
    · intro p hp'
      obtain ⟨y, hy⟩ := (readable_iff hp p.2).2 (fine p hp').2
      refine ⟨y, ?_⟩
      unfold mapEntryE
      rw [if_neg (fun hc => hc.2 (fine p hp').1)]
      exact hy
    · unfold mapEntryE
      rw [if_pos ⟨rfl, bad⟩]
  | @mapValue chars t v l pre k w post e h split fine key _ ih =>
    intro hp
    rw [Ty.Proper] at hp
    refine (C73_map _ _ _ _).2 (.inl ⟨_, h, pre, (k, w), post, split, ?_, ?_⟩)
    · intro p hp'
      obtain ⟨y, hy⟩ := (readable_iff hp p.2).2 (fine p hp').2
      refine ⟨y, ?_⟩
      unfold mapEntryE
      rw [if_neg (fun hc => hc.2 ((fine p hp').1 hc.1))]
      exact hy
    · unfold mapEntryE
      rw [if_neg (fun hc => hc.2 (key hc.1))]
      exact ih hp
  | mapUnnamed h => intro _; exact (C73_map _ _ _ _).2 (.inr (.inl ⟨_, h, rfl⟩))
  | mapBits h => intro _; exact (C73_map _ _ _ _).2 (.inr (.inr (.inl ⟨⟨_, h⟩, rfl⟩)))
  | mapOther h s => intro _; exact (C73_map _ _ _ _).2 (.inr (.inr (.inr ⟨⟨_, h⟩, _, s, rfl⟩)))
  | valueBits h _ ih =>
    intro _
    rw [Ty.deE, mapE_error]
    exact (C73_value _ _).2 (.inl ⟨_, _, h, ih (by simp [Ty.Proper])⟩)
  | value h fields split fine _ ih =>
    intro hp
    rw [Ty.deE, mapE_error]
    refine (C73_value _ _).2 (.inr ⟨h, _, fields, _, _, _, split, ?_, ?_⟩)
    · intro x hx
      obtain ⟨y, hy⟩ := (readable_iff (t := .value) (by simp [Ty.Proper]) x).2 (fine x hx)
      rw [Ty.deE] at hy
      cases hz : deValueE x.der with
      | error e' => rw [hz] at hy; cases hy
      | ok z => exact ⟨z, hz⟩
    · have := ih hp
      rwa [Ty.deE, mapE_error] at this

/-! ### C82 -/

/-- C82: the error of `from_value` is the one that `ReadFault` says. (`Proper`: no two fields of a struct or of a variant have the same name, as in Rust.) -/
theorem C82_error (t : Ty) (ht : t.Proper) (v : Value T) (e : DeErr) : t.deE v.der = .error e ↔ ReadFault t v e :=
  ⟨readFault_of_deE _ t (Nat.le_refl _) ht v e, fun h => deE_of_readFault h ht⟩

/-- C82: of any value, just one is true: it is read, and as one thing, or it has one error. -/
theorem C82_one (t : Ty) (ht : t.Proper) (v : Value T) :
    ((∃ d, ReadAs t v d ∧ ∀ d', ReadAs t v d' → d' = d) ∧ ∀ e, ¬ ReadFault t v e) ∨ ((∃ e, ReadFault t v e ∧ ∀ e', ReadFault t v e' → e' = e) ∧ ∀ d, ¬ ReadAs t v d) := by
  simp only [← C82_error t ht]
  cases h : t.deE v.der with
  | ok d =>
    refine .inl ⟨⟨d, ?_, ?_⟩, by simp⟩
    · exact (C81_reads t v d).1 (((C73_agree t ht v.der).1 d).1 h)
    · intro d' hd
      exact C81_one t v d' d hd ((C81_reads t v d).1 (((C73_agree t ht v.der).1 d).1 h))
  | error e =>
    refine .inr ⟨⟨e, rfl, by simp⟩, ?_⟩
    intro d hd
    rw [← C81_reads, ← (C73_agree t ht v.der).1, h] at hd
    cases hd

/-! ### C82 is about something -/

/-- The rules put together by hand: of two entries that are wrong the first counts, also when a field is missing. -/
example : ReadFault (.struct [("a".toList, .seq .bool), ("b".toList, .bool), ("c".toList, .num .u8)])
    (Value.namedComposite [("b".toList, Value.bool true), ("a".toList, Value.unnamedComposite [Value.bool false, Value.char 'x', exU 1]), ("b".toList, Value.bool false)])
    (.invalidType (.str "x".toList) .bool) := by
  refine .structEntry (pre := [("b".toList, Value.bool true)]) (t := .seq .bool) rfl ⟨by decide, ?_⟩ (by simp) (by decide) ?_
  · intro p hp t ht
    simp only [List.mem_singleton] at hp
    subst hp
    simp only [List.mem_cons, Prod.mk.injEq, List.not_mem_nil, or_false] at ht
    rcases ht with ⟨h, -⟩ | ⟨-, rfl⟩ | ⟨h, -⟩
    · exact absurd h (by decide)
    · exact ⟨_, .bool rfl⟩
    · exact absurd h (by decide)
  · refine .seq (c := .unnamed [Value.bool false, Value.char 'x', exU 1]) (pre := [Value.bool false]) (w := Value.char 'x') (post := [exU 1]) rfl rfl ?_ ?_
    · intro x hx
      simp only [List.mem_singleton] at hx
      subst hx
      exact ⟨_, .bool rfl⟩
    · exact .bool (by intro b h; cases h) (.char rfl)

/-- The type of the example is one of C82. -/
theorem c82_ex_proper : (Ty.struct [("a".toList, .seq .bool), ("b".toList, .bool), ("c".toList, .num .u8)]).Proper := by
  simp [Ty.Proper, Ty.ProperFields]

example : ReadFault (.struct [("a".toList, .seq .bool), ("b".toList, .bool), ("c".toList, .num .u8)])
    (Value.namedComposite [("b".toList, Value.bool true), ("b".toList, Value.bool true), ("a".toList, exU 1)]) (.duplicateField "b".toList) :=
  (C82_error _ c82_ex_proper _ _).1 rfl
example : ReadFault (.struct [("a".toList, .seq .bool), ("b".toList, .bool), ("c".toList, .num .u8)])
    (Value.namedComposite [("z".toList, exU 1), ("b".toList, Value.bool true)]) (.missingField "a".toList) :=
  (C82_error _ c82_ex_proper _ _).1 rfl
example : ReadFault (.struct [("a".toList, .seq .bool), ("b".toList, .bool), ("c".toList, .num .u8)])
    (Value.unnamedComposite [Value.unnamedComposite [], Value.bool true]) (.invalidLength 2 .struct) :=
  (C82_error _ c82_ex_proper _ _).1 rfl

end SV
