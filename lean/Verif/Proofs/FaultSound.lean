import Verif.Proofs.FaultParse
/-
What the parser reports is a fault of Spec/Fault.lean.
-/
namespace SV

variable {u : Uni}

/-- What is assumed of the parser of one item, on texts of less than `m` characters: the texts it accepts, and the faults it reports. -/
structure ItemOk {α : Type} (item : Toks → Option (Except ParseError α × Toks)) (P : Str → Prop)
    (F : Nat → Str → ParseError → Prop) (m : Nat) : Prop where
  err : ∀ t e t', t.rest.length < m → item t = some (.error e, t') → F t.off t.rest e
  ok : ∀ t a t', t.rest.length < m → item t = some (.ok a, t') →
    ∃ x, P x ∧ t.rest = x ++ t'.rest ∧ t'.off = t.off + utf8Len x ∧ PlainFollow x t'.rest

/-- And of the faults of lists. -/
structure ListOk (u : Uni) (P : Str → Prop) (F G : Nat → Str → ParseError → Prop) (close : Char) (p : Nat) : Prop where
  first : ∀ o s e, F o s e → G o s e
  next : ∀ o x w3 w4 s e, P x → Ws u w3 → Ws u w4 → NoHead (fun c => u.ws c = true) s →
    G (o + utf8Len (x ++ w3 ++ ',' :: w4)) s e → G o (x ++ w3 ++ ',' :: w4 ++ s) e
  close : ∀ o x w s, P x → PlainFollow x (w ++ s) → Ws u w →
    NoHead (fun c => u.ws c = true ∨ c = ',' ∨ c = close) s →
    G o (x ++ w ++ s) ((ParseErrorKind.expectedCloserToMatch close p).atOne (o + utf8Len (x ++ w)))

theorem tail_fault {α : Type} {item : Toks → Option (Except ParseError α × Toks)} {P : Str → Prop}
    {F G : Nat → Str → ParseError → Prop} {close : Char} {p m : Nat} (hi : ItemOk item P F m) (hl : ListOk u P F G close p)
    {e : ParseError} : ∀ (fuel : Nat) (acc : List α) (t : Toks) (o : Nat) (x : Str), t.rest.length < m → P x → PlainFollow x t.rest →
      t.off = o + utf8Len x → TailErr u close p e (sepRest item (skipSpacedSep u ',') fuel acc t) →
      G o (x ++ t.rest) e := by
  have cm : (',' : Char).utf8Size = 1 := rfl
  intro fuel
  induction fuel with
  | zero =>
    intro acc t o x _ _ _ _ h
    rcases h with ⟨_, h⟩ | ⟨_, _, h, _⟩ <;> simp [sepRest] at h
  | succ fuel ih =>
    intro acc t o x hm hx hf ho h
    obtain ⟨w1, hw1, e1, e2, e3⟩ := skipWs_spec (u := u) t
    rcases token_cases ',' (skipWs u t) with ⟨r, h1, h2⟩ | ⟨h1, h2⟩
    · -- a comma
      obtain ⟨w2, hw2, e4, e5, e6⟩ := skipWs_spec (u := u) ⟨r, (skipWs u t).off + ','.utf8Size⟩
      have hsep : skipSpacedSep u ',' t = (true, skipWs u ⟨r, (skipWs u t).off + ','.utf8Size⟩) := by
        unfold skipSpacedSep; simp only [h2]
      generalize skipWs u ⟨r, (skipWs u t).off + ','.utf8Size⟩ = t1 at *
      simp only at e4 e6
      have er : t.rest = w1 ++ ',' :: w2 ++ t1.rest := by rw [e1, h1, e4]; simp
      have eo : t1.off = o + utf8Len (x ++ w1 ++ ',' :: w2) := by rw [e6, e3, ho]; simp [cm]; omega
      have hm1 : t1.rest.length < m := by
        have := congrArg List.length er; simp at this; omega
      have goal : G (o + utf8Len (x ++ w1 ++ ',' :: w2)) t1.rest e → G o (x ++ t.rest) e := by
        intro hg
        have := hl.next o x w1 w2 t1.rest e hx hw1 hw2 (noHead_headNot.2 e5) hg
        rw [er]; simpa [List.append_assoc] using this
      simp only [sepRest, hsep] at h
      cases hit : item t1 with
      | none => rcases h with ⟨_, h⟩ | ⟨_, _, h, _⟩ <;> simp [hit] at h
      | some r' =>
        obtain ⟨res, t2⟩ := r'
        cases res with
        | error e' =>
          simp only [hit] at h
          rcases h with ⟨_, h⟩ | ⟨_, _, h, _⟩
          · simp at h; obtain ⟨rfl, rfl⟩ := h
            have := hi.err _ _ _ hm1 hit
            rw [eo] at this
            exact goal (hl.first _ _ _ this)
          · simp at h
        | ok a =>
          simp only [hit] at h
          obtain ⟨y, hy, e7, e8, e9⟩ := hi.ok _ _ _ hm1 hit
          rw [eo] at e8
          have := ih _ t2 _ y (by have := congrArg List.length e7; simp at this; omega) hy e9 e8 h
          rw [← e7] at this
          exact goal this
    · -- no comma
      have hsep : ∃ t1, skipSpacedSep u ',' t = (false, t1) := by
        unfold skipSpacedSep; simp only [h2]; exact ⟨_, rfl⟩
      obtain ⟨t1, hsep⟩ := hsep
      simp only [sepRest, hsep] at h
      rcases h with ⟨_, h⟩ | ⟨as, t4, h, h3, h4⟩
      · simp at h
      · simp at h; obtain ⟨rfl, rfl⟩ := h
        subst h4
        have := hl.close o x w1 (skipWs u t).rest hx (by rw [← e1]; exact hf) hw1 (by
          intro c r hc h
          rcases h with h | h | h
          · exact absurd h (by simpa using e2 c r hc)
          · subst h; exact h1 r hc
          · exact h3 c r hc h)
        rw [e3, ho, e1]
        simpa [List.append_assoc, Nat.add_assoc] using this

theorem list_fault {α : Type} {item : Toks → Option (Except ParseError α × Toks)} {P : Str → Prop}
    {F G : Nat → Str → ParseError → Prop} {close : Char} {p m : Nat} (hi : ItemOk item P F m) (hl : ListOk u P F G close p)
    {e : ParseError} {t : Toks} (hm : t.rest.length < m) (h : TailErr u close p e (sepByErr item (skipSpacedSep u ',') t)) :
    G t.off t.rest e := by
  unfold sepByErr at h
  cases hit : item t with
  | none => rcases h with ⟨_, h⟩ | ⟨_, _, h, _⟩ <;> simp [hit] at h
  | some r' =>
    obtain ⟨res, t2⟩ := r'
    cases res with
    | error e' =>
      simp only [hit] at h
      rcases h with ⟨_, h⟩ | ⟨_, _, h, _⟩
      · simp at h; obtain ⟨rfl, rfl⟩ := h
        exact hl.first _ _ _ (hi.err _ _ _ hm hit)
      · simp at h
    | ok a =>
      simp only [hit] at h
      obtain ⟨y, hy, e7, e8, e9⟩ := hi.ok _ _ _ hm hit
      have := tail_fault hi hl _ _ t2 t.off y (by have := congrArg List.length e7; simp at this; omega) hy e9 e8 h
      rw [e7]; exact this

/-- What is assumed of the recursive parser. -/
abbrev PvOk (u : Uni) (pv : Toks → VRes) (m : Nat) : Prop :=
  ItemOk pv (fun x => ∃ v, Text u NoCustom v x) (Fault u .val) m

theorem listOk_vals (p : Nat) : ListOk u (fun x => ∃ v, Text u NoCustom v x) (Fault u .val) (Fault u (.vals p)) ')' p where
  first _ _ _ h := .val h
  next _ _ _ _ _ _ h hw3 hw4 hs hg := by obtain ⟨v, h⟩ := h; exact .valNext h hw3 hw4 hs hg
  close _ _ _ _ h hf hw hs := by obtain ⟨v, h⟩ := h; exact .valClose h hf hw hs

theorem unnamed_fault {pv : Toks → VRes} {m : Nat} (hp : PvOk u pv m) {t t' : Toks} (hm : t.rest.length ≤ m) {e : Option ParseError}
    (h : parseUnnamedComposite u pv t = some (.error e, t')) :
    (∃ e', e = some e' ∧ Fault u .comp t.off t.rest e') ∨ (e = none ∧ t' = t ∧ ∀ r, t.rest ≠ '(' :: r) := by
  have lp : ('(' : Char).utf8Size = 1 := rfl
  unfold parseUnnamedComposite at h
  rcases token_cases '(' t with ⟨r, h1, h2⟩ | ⟨h1, h2⟩
  · left
    simp only [h2] at h
    obtain ⟨w, hw, e1, e2, e3⟩ := skipWs_spec (u := u) ⟨r, t.off + '('.utf8Size⟩
    generalize skipWs u ⟨r, t.off + '('.utf8Size⟩ = t2 at *
    simp only at e1 e3
    rcases token_cases ')' t2 with ⟨r2, h3, h4⟩ | ⟨h3, h4⟩
    · simp [h4] at h
    · simp only [h4] at h
      have eo : t2.off = t.off + utf8Len ('(' :: w) := by rw [e3]; simp; omega
      have hs : NoHead (fun c => u.ws c = true ∨ c = ')') t2.rest := by
        intro c r hc hx
        rcases hx with hx | hx
        · exact absurd hx (by simpa using e2 c r hc)
        · subst hx; exact h3 r hc
      have hm2 : t2.rest.length < m := by
        rw [h1, e1] at hm; simp at hm; omega
      have fin : ∀ e', TailErr u ')' t.off e' (sepByErr pv (skipSpacedSep u ',') t2) → Fault u .comp t.off t.rest e' := by
        intro e' ht
        have := list_fault hp (listOk_vals t.off) hm2 ht
        rw [eo] at this
        rw [h1, e1]
        exact .unnamed hw hs this
      split at h
      · simp at h
      · next e' t4 hsep =>
        simp at h; obtain ⟨rfl, rfl⟩ := h
        exact ⟨_, rfl, fin _ (.inl ⟨_, hsep⟩)⟩
      · next vals t4 hsep =>
        rcases token_cases ')' (skipWs u t4) with ⟨r3, h5, h6⟩ | ⟨h5, h6⟩
        · simp [h6] at h
        · simp [h6] at h; obtain ⟨rfl, rfl⟩ := h
          exact ⟨_, rfl, fin _ (.inr ⟨vals, t4, hsep, noHead_eq.2 h5, rfl⟩)⟩
  · right
    simp [h2] at h
    exact ⟨h.1.symm, h.2.symm, h1⟩

theorem field_ok {pv : Toks → VRes} {m : Nat} (hp : PvOk u pv m) (p : Nat) :
    ItemOk (parseField u pv) (fun x => ∃ k v, Txt u NoCustom (.fields [(k, v)]) x) (Fault u (.fields p)) m := by
  have cl : (':' : Char).utf8Size = 1 := rfl
  have name : ∀ {t t1 : Toks} {k : Str}, parseFieldName u t = (.ok k, t1) →
      ∃ n, FieldName u k n ∧ t.rest = n ++ t1.rest ∧ t1.off = t.off + utf8Len n ∧
        (Ident u n → NoHead (fun c => u.alnum c = true ∨ c = '_') t1.rest) := by
    intro t t1 k h
    unfold parseFieldName at h
    split at h
    · next h1 =>
      cases h
      obtain ⟨x, hx, h2, h3⟩ := parseString_sound h1
      refine ⟨x, .quoted hx, h2, h3, ?_⟩
      intro hi
      cases hx
      cases hi with
      | mk hc _ => exact absurd rfl (alpha_ne hc '"' (by decide) (by decide))
    · cases h
    · rcases parseIdent_cases (u := u) t with ⟨_, h2⟩ | ⟨c, cs, r, h1, h2, h3, h4, h5⟩
      · rw [h2] at h; cases h
      · rw [h5] at h; cases h
        refine ⟨c :: cs, .ident (.mk h2 fun d hd => ?_), h1, rfl, ?_⟩
        · simpa [identCh] using h3 d hd
        · intro _
          exact (noHead_headNot.2 h4).mono fun c hc => by simpa [identCh] using hc
  have sep : ∀ {t t2 : Toks} {b : Bool}, skipSpacedSep u ':' t = (b, t2) →
      (b = true ∧ ∃ w1 w2, Ws u w1 ∧ Ws u w2 ∧ t.rest = w1 ++ ':' :: w2 ++ t2.rest ∧
        t2.off = t.off + utf8Len (w1 ++ ':' :: w2) ∧ NoHead (fun c => u.ws c = true) t2.rest) ∨
      (b = false ∧ ∃ w, Ws u w ∧ t.rest = w ++ t2.rest ∧ t2.off = t.off + utf8Len w ∧
        NoHead (fun c => u.ws c = true ∨ c = ':') t2.rest) := by
    intro t t2 b h
    unfold skipSpacedSep at h
    obtain ⟨w1, hw1, h1, h1', h1''⟩ := skipWs_spec (u := u) t
    rcases token_cases ':' (skipWs u t) with ⟨r, h3, h4⟩ | ⟨h3, h4⟩
    · simp only [h4] at h
      obtain ⟨w2, hw2, h5, h6, h7⟩ := skipWs_spec (u := u) ⟨r, (skipWs u t).off + ':'.utf8Size⟩
      cases h
      refine .inl ⟨rfl, w1, w2, hw1, hw2, ?_, ?_, noHead_headNot.2 h6⟩
      · simp only at h5; rw [h1, h3]; simp [← h5]
      · rw [h7, h1'']; simp [cl]; omega
    · simp only [h4] at h
      cases h
      have : skipWs u (skipWs u t) = skipWs u t := by
        have := skipWs_split (u := u) (w := []) (by intro c h; cases h) h1' (skipWs u t).off
        simpa using this
      refine .inr ⟨rfl, w1, hw1, by rw [this]; exact h1, by rw [this]; exact h1'', ?_⟩
      rw [this]
      intro c r hc hx
      rcases hx with hx | hx
      · exact absurd hx (by simpa using h1' c r hc)
      · subst hx; exact h3 r hc
  constructor
  · intro t e t' hm h
    unfold parseField at h
    split at h
    · next e' t1 hn =>
      simp at h; obtain ⟨rfl, rfl⟩ := h
      unfold parseFieldName at hn
      split at hn
      · cases hn
      · next h1 => cases hn; exact .nameString (parseString_fault h1)
      · next h1 =>
        have h2 := (parseString_err_none h1).1
        rcases parseIdent_cases (u := u) t with ⟨h3, h4⟩ | ⟨c, cs, r, h1, h2, h3, h4, h5⟩
        · rw [h4] at hn; cases hn
          refine .noName ?_
          intro c r hc hx
          rcases hx with hx | hx
          · exact absurd hx (by simpa using h3 c r hc)
          · subst hx; exact h2 r hc
        · rw [h5] at hn; cases hn
    · next k t1 hn =>
      obtain ⟨n, hk, h1, h2, h3⟩ := name hn
      split at h
      · next t2 hs =>
        simp at h; obtain ⟨rfl, rfl⟩ := h
        rcases sep hs with ⟨hb, _⟩ | ⟨_, w, hw, h4, h5, h6⟩
        · cases hb
        · rw [h4] at h3 h1
          have := Fault.colon (p := p) (o := t.off) hk hw h3 h6
          rw [h1, h5, h2]
          simpa [List.append_assoc, Nat.add_assoc] using this
      · next t2 hs =>
        rcases sep hs with ⟨_, w1, w2, hw1, hw2, h4, h5, h6⟩ | ⟨hb, _⟩
        · split at h
          · simp at h
          · next e' t3 hv =>
            simp at h; obtain ⟨rfl, rfl⟩ := h
            have hf := hp.err _ _ _ (by rw [h1, h4] at hm; simp at hm; omega) hv
            have : t2.off = t.off + utf8Len (n ++ w1 ++ ':' :: w2) := by rw [h5, h2]; simp [Nat.add_assoc]
            rw [this] at hf
            have := Fault.field (p := p) hk hw1 hw2 h6 hf
            rw [h1, h4]
            simpa [List.append_assoc] using this
          · simp at h
        · cases hb
  · intro t a t' hm h
    unfold parseField at h
    split at h
    · simp at h
    · next k t1 hn =>
      obtain ⟨n, hk, h1, h2, h3⟩ := name hn
      split at h
      · simp at h
      · next t2 hs =>
        rcases sep hs with ⟨_, w1, w2, hw1, hw2, h4, h5, h6⟩ | ⟨hb, _⟩
        · split at h
          · simp at h
          · simp at h
          · next v t3 hv =>
            simp at h; obtain ⟨rfl, rfl⟩ := h
            obtain ⟨x, ⟨v', hx⟩, h7, h8, h9⟩ := hp.ok _ _ _ (by rw [h1, h4] at hm; simp at hm; omega) hv
            refine ⟨n ++ w1 ++ ':' :: w2 ++ x, ⟨k, v', .field1 hk hw1 hw2 hx⟩, ?_, ?_, ?_⟩
            · rw [h1, h4, h7]; simp
            · rw [h8, h5, h2]; simp [Nat.add_assoc]
            · rw [plainFollow_append (text_ne_nil hx)]; exact h9
        · cases hb

theorem listOk_fields (p : Nat) : ListOk u (fun x => ∃ k v, Txt u NoCustom (.fields [(k, v)]) x) (Fault u (.fields p))
    (Fault u (.fields p)) '}' p where
  first _ _ _ h := h
  next _ _ _ _ _ _ h hw3 hw4 hs hg := by obtain ⟨k, v, h⟩ := h; exact .fieldNext h hw3 hw4 hs hg
  close _ _ _ _ h hf hw hs := by obtain ⟨k, v, h⟩ := h; exact .fieldClose h hf hw hs

theorem named_fault {pv : Toks → VRes} {m : Nat} (hp : PvOk u pv m) {t t' : Toks} (hm : t.rest.length ≤ m) {e : Option ParseError}
    (h : parseNamedComposite u pv t = some (.error e, t')) :
    (∃ e', e = some e' ∧ Fault u .comp t.off t.rest e') ∨ (e = none ∧ t' = t ∧ ∀ r, t.rest ≠ '{' :: r) := by
  unfold parseNamedComposite at h
  rcases token_cases '{' t with ⟨r, h1, h2⟩ | ⟨h1, h2⟩
  · left
    simp only [h2] at h
    obtain ⟨w, hw, e1, e2, e3⟩ := skipWs_spec (u := u) ⟨r, t.off + '{'.utf8Size⟩
    generalize skipWs u ⟨r, t.off + '{'.utf8Size⟩ = t2 at *
    simp only at e1 e3
    rcases token_cases '}' t2 with ⟨r2, h3, h4⟩ | ⟨h3, h4⟩
    · simp [h4] at h
    · simp only [h4] at h
      have eo : t2.off = t.off + utf8Len ('{' :: w) := by rw [e3]; simp; omega
      have hs : NoHead (fun c => u.ws c = true ∨ c = '}') t2.rest := by
        intro c r hc hx
        rcases hx with hx | hx
        · exact absurd hx (by simpa using e2 c r hc)
        · subst hx; exact h3 r hc
      have hm2 : t2.rest.length < m := by
        rw [h1, e1] at hm; simp at hm; omega
      have fin : ∀ e', TailErr u '}' t.off e' (sepByErr (parseField u pv) (skipSpacedSep u ',') t2) →
          Fault u .comp t.off t.rest e' := by
        intro e' ht
        have := list_fault (field_ok hp t.off) (listOk_fields t.off) hm2 ht
        rw [eo] at this
        rw [h1, e1]
        exact .named hw hs this
      split at h
      · simp at h
      · next e' t4 hsep =>
        simp at h; obtain ⟨rfl, rfl⟩ := h
        exact ⟨_, rfl, fin _ (.inl ⟨_, hsep⟩)⟩
      · next vals t4 hsep =>
        rcases token_cases '}' (skipWs u t4) with ⟨r3, h5, h6⟩ | ⟨h5, h6⟩
        · simp [h6] at h
        · simp [h6] at h; obtain ⟨rfl, rfl⟩ := h
          exact ⟨_, rfl, fin _ (.inr ⟨vals, t4, hsep, noHead_eq.2 h5, rfl⟩)⟩
  · right
    simp [h2] at h
    exact ⟨h.1.symm, h.2.symm, h1⟩

theorem orAlt_err {α : Type} {r : RRes α} {k : Unit → RRes α} {e : ParseError} {t : Toks}
    (h : orAlt r k = some (.error (some e), t)) :
    r = some (.error (some e), t) ∨ (∃ t', r = some (.error none, t')) ∧ k () = some (.error (some e), t) := by
  unfold orAlt at h
  split at h
  · exact .inr ⟨⟨_, rfl⟩, h⟩
  · exact .inl h

theorem orAlt_none {α : Type} {r : RRes α} {k : Unit → RRes α} {t : Toks} (h : orAlt r k = some (.error none, t)) :
    (∃ t', r = some (.error none, t')) ∧ k () = some (.error none, t) := by
  unfold orAlt at h
  split at h
  · exact ⟨⟨_, rfl⟩, h⟩
  · next hn => exact absurd h (hn _)

theorem map_err {α β : Type} {r : RRes α} {f : α → β} {e : Option ParseError} {t : Toks}
    (h : r.map (PRes.map f) = some (.error e, t)) : r = some (.error e, t) := by
  match r, h with
  | some (.ok a, t'), h => simp [PRes.map] at h
  | some (.error e, t'), h => simp [PRes.map] at h; simp [h]

theorem pmap_err {α β : Type} {r : PRes α} {f : α → β} {e : Option ParseError} {t : Toks}
    (h : some (PRes.map f r) = some (.error e, t)) : r = (.error e, t) := by
  match r, h with
  | (.ok a, t'), h => simp [PRes.map] at h
  | (.error e, t'), h => simp [PRes.map] at h; simp [h]

theorem variantIdent_off {t t1 : Toks} {n : Str} (h : parseOptionalVariantIdent u t = (some n, t1))
    (hb1 : ¬ ['t', 'r', 'u', 'e'] <+: t.rest) (hb2 : ¬ ['f', 'a', 'l', 's', 'e'] <+: t.rest) :
    ∃ x, VariantName u n x ∧ t.rest = x ++ t1.rest ∧ t1.off = t.off + utf8Len x := by
  have hn : ∃ x, VariantName u n x ∧ t.rest = x ++ t1.rest := by
    rcases parseOptionalVariantIdent_sound h with ⟨x, hx, h1⟩ | ⟨hx, h1⟩
    · exact ⟨_, .quoted hx, h1⟩
    · refine ⟨_, .ident hx (fun hp => hb1 ?_) (fun hp => hb2 ?_), h1⟩ <;>
      · rw [h1]; exact hp.trans (List.prefix_append _ _)
  obtain ⟨x, hx, h1⟩ := hn
  obtain ⟨pre, h2, h3⟩ := parseOptionalVariantIdent_adv (u := u) t
  rw [h] at h2 h3
  simp only at h2 h3
  have : pre = x := by
    rw [h1] at h2
    exact (List.append_cancel_right h2).symm
  subst this
  exact ⟨_, hx, h1, h3⟩

theorem variant_fault {pv : Toks → VRes} {m : Nat} (hp : PvOk u pv m) {t t' : Toks} (hm : t.rest.length ≤ m) {e : ParseError}
    (hb1 : ¬ ['t', 'r', 'u', 'e'] <+: t.rest) (hb2 : ¬ ['f', 'a', 'l', 's', 'e'] <+: t.rest)
    (h : parseVariant u pv t = some (.error (some e), t')) : Fault u .val t.off t.rest e := by
  unfold parseVariant at h
  split at h
  · simp at h
  · next n t1 hn =>
    obtain ⟨x, hx, h1, h2⟩ := variantIdent_off hn hb1 hb2
    obtain ⟨w, hw, e1, e2, e3⟩ := skipWs_spec (u := u) t1
    generalize skipWs u t1 = t2 at *
    simp only at h
    have hm2 : t2.rest.length ≤ m := by rw [h1, e1] at hm; simp at hm; omega
    have fin : Fault u .comp t2.off t2.rest e → Fault u .val t.off t.rest e := by
      intro hf
      have eo : t2.off = t.off + utf8Len (x ++ w) := by rw [e3, h2]; simp [Nat.add_assoc]
      rw [eo] at hf
      have := Fault.variant hx hw hf
      rw [h1, e1]; simpa [List.append_assoc] using this
    split at h
    · simp at h
    · simp at h
    · next e' t3 ho =>
      simp at h; obtain ⟨rfl, rfl⟩ := h
      rcases orAlt_err ho with ho | ⟨_, ho⟩
      · rcases named_fault hp hm2 ho with ⟨e', he, hf⟩ | ⟨he, _⟩
        · cases he; exact fin hf
        · cases he
      · rcases orAlt_err ho with ho | ⟨_, ho⟩
        · rcases unnamed_fault hp hm2 ho with ⟨e', he, hf⟩ | ⟨he, _⟩
          · cases he; exact fin hf
          · cases he
        · simp at ho

theorem variant_none_fault {pv : Toks → VRes} {t t' : Toks} (h : parseVariant u pv t = some (.error none, t')) :
    ¬ ∃ n x w b r, VariantName u n x ∧ Ws u w ∧ (b = '(' ∨ b = '{') ∧ t.rest = x ++ w ++ b :: r := by
  rintro ⟨n, x, w, b, r, hx, hw, hb, e1⟩
  obtain ⟨rest, o⟩ := t
  simp only at e1
  subst e1
  have hid : HeadNot (identCh u) (w ++ b :: r) := by
    refine headNot_ws_append hw (fun c h => ws_not_identCh h) ?_
    rcases hb with rfl | rfl <;> exact HeadNot_cons.2 (identCh_ascii_false (by decide) (by decide) (by decide))
  have hq : ∀ r', w ++ b :: r ≠ '"' :: r' := by
    intro r' e
    cases w with
    | nil => rcases hb with rfl | rfl <;> simp at e
    | cons d w =>
      simp at e
      have := hw d (by simp)
      rw [e.1, ws_false_ascii (by decide) (by decide)] at this; cases this
  have htw : HeadNot u.ws (b :: r) := by
    rcases hb with rfl | rfl <;> exact HeadNot_cons.2 (ws_false_ascii (by decide) (by decide))
  unfold parseVariant at h
  rw [List.append_assoc, hx.parse hid hq] at h
  simp only at h
  rw [skipWs_split hw htw] at h
  split at h
  · simp at h
  · simp at h
  · next e' t3 ho =>
    simp at h; obtain ⟨rfl, rfl⟩ := h
    obtain ⟨⟨_, h1⟩, ho⟩ := orAlt_none ho
    obtain ⟨⟨_, h2⟩, _⟩ := orAlt_none ho
    rcases hb with rfl | rfl
    · exact unnamed_isSome_err h2
    · exact named_isSome_err h1

theorem builtin_fault {pv : Toks → VRes} {m : Nat} (hp : PvOk u pv m) {t t' : Toks} (hm : t.rest.length ≤ m) {e : ParseError}
    (h : parseBuiltin u pv t = some (.error e, t')) : Fault u .val t.off t.rest e := by
  unfold parseBuiltin at h
  simp only at h
  have bool_none : ∀ {t'}, (some ((parseBool t).map Value.bool) : RRes (Value Unit)) = some (.error none, t') →
      ¬ ['t', 'r', 'u', 'e'] <+: t.rest ∧ ¬ ['f', 'a', 'l', 's', 'e'] <+: t.rest := by
    intro t' hb
    have := pmap_err hb
    rcases parseBool_cases t with ⟨r, h1, h2⟩ | ⟨r, h1, h2⟩ | ⟨h1, h2, _⟩
    · rw [h2] at this; simp at this
    · rw [h2] at this; simp at this
    · exact ⟨h1, h2⟩
  split at h
  · simp at h
  · simp at h
  · next e' t1 ho =>
    simp at h; obtain ⟨rfl, rfl⟩ := h
    rcases orAlt_err ho with ho | ⟨⟨_, hb⟩, ho⟩
    · have := pmap_err ho
      rcases parseBool_cases t with ⟨r, h1, h2⟩ | ⟨r, h1, h2⟩ | ⟨h1, _, h2⟩ <;> (rw [h2] at this; simp at this)
    have hnb := bool_none hb
    rcases orAlt_err ho with ho | ⟨_, ho⟩
    · rcases parseChar_fault (pmap_err ho) with ⟨e', he, hf⟩ | ⟨he, _⟩
      · cases he; exact .char hf
      · cases he
    rcases orAlt_err ho with ho | ⟨_, ho⟩
    · exact .string (parseString_fault (pmap_err ho))
    rcases orAlt_err ho with ho | ⟨_, ho⟩
    · rcases parseNumber_fault (pmap_err ho) with ⟨e', he, hf⟩ | ⟨he, _⟩
      · cases he; exact .number hf
      · cases he
    rcases orAlt_err ho with ho | ⟨_, ho⟩
    · rcases named_fault hp hm (map_err ho) with ⟨e', he, hf⟩ | ⟨he, _⟩
      · cases he; exact .composite hf
      · cases he
    rcases orAlt_err ho with ho | ⟨_, ho⟩
    · rcases unnamed_fault hp hm (map_err ho) with ⟨e', he, hf⟩ | ⟨he, _⟩
      · cases he; exact .composite hf
      · cases he
    rcases orAlt_err ho with ho | ⟨_, ho⟩
    · rcases parseBitSequence_fault (pmap_err ho) with ⟨bs, r, h1, h2, he⟩ | ⟨he, _⟩
      · cases he; rw [h1]; exact .bits h2
      · cases he
    rcases orAlt_err ho with ho | ⟨_, ho⟩
    · exact variant_fault hp hm hnb.1 hnb.2 (map_err ho)
    · simp at ho
  · next t1 ho =>
    simp at h; obtain ⟨rfl, rfl⟩ := h
    obtain ⟨⟨_, h1⟩, ho⟩ := orAlt_none ho
    obtain ⟨⟨_, h2⟩, ho⟩ := orAlt_none ho
    obtain ⟨⟨_, h3⟩, ho⟩ := orAlt_none ho
    obtain ⟨⟨_, h4⟩, ho⟩ := orAlt_none ho
    obtain ⟨⟨_, h5⟩, ho⟩ := orAlt_none ho
    obtain ⟨⟨_, h6⟩, ho⟩ := orAlt_none ho
    obtain ⟨⟨_, h7⟩, ho⟩ := orAlt_none ho
    obtain ⟨⟨_, h8⟩, ho⟩ := orAlt_none ho
    simp at ho; subst ho
    have hb := bool_none h1
    refine .noValue ⟨?_, hb.1, hb.2, variant_none_fault (map_err h8)⟩
    have k2 : ∀ r, t.rest ≠ '\'' :: r := by
      rcases parseChar_fault (pmap_err h2) with ⟨_, he, _⟩ | ⟨_, _, h⟩
      · cases he
      · exact h
    have k3 := (parseString_err_none (pmap_err h3)).1
    have k4 : ∀ c r, t.rest = c :: r → isDigit c = false ∧ c ≠ '+' ∧ c ≠ '-' := by
      rcases parseNumber_fault (pmap_err h4) with ⟨_, he, _⟩ | ⟨_, _, h⟩
      · cases he
      · exact h
    have k5 : ∀ r, t.rest ≠ '{' :: r := by
      rcases named_fault hp hm (map_err h5) with ⟨_, he, _⟩ | ⟨_, _, h⟩
      · cases he
      · exact h
    have k6 : ∀ r, t.rest ≠ '(' :: r := by
      rcases unnamed_fault hp hm (map_err h6) with ⟨_, he, _⟩ | ⟨_, _, h⟩
      · cases he
      · exact h
    have k7 : ∀ r, t.rest ≠ '<' :: r := by
      rcases parseBitSequence_fault (pmap_err h7) with ⟨_, _, _, _, he⟩ | ⟨_, _, h⟩
      · cases he
      · exact h
    intro c r hc hx
    have k4 := k4 c r hc
    simp only [List.mem_cons, List.not_mem_nil, or_false] at hx
    rcases hx with hx | hx | hx | hx | hx | hx | hx | hx
    · rw [k4.1] at hx; cases hx
    · subst hx; exact k2 r hc
    · subst hx; exact k3 r hc
    · exact k4.2.1 hx
    · exact k4.2.2 hx
    · subst hx; exact k5 r hc
    · subst hx; exact k6 r hc
    · subst hx; exact k7 r hc

theorem parseValueN_ok (n : Nat) : PvOk u (parseValueN u [] n) n := by
  induction n with
  | zero => constructor <;> (intro t e t' hm; omega)
  | succ n ih =>
    constructor
    · intro t e t' hm h
      rw [step_builtin] at h
      exact builtin_fault ih (by omega) h
    · intro t v t' hm h
      obtain ⟨x, hx, h1, h2⟩ := parseValueN_sound _ _ _ _ h
      refine ⟨x, ⟨v, hx⟩, h1, ?_, h2⟩
      obtain ⟨_, _, h3, ⟨pre, h4, h5⟩, _⟩ := parseValueN_inv (u := u) [] (n + 1) t hm
      rw [h] at h3; cases h3
      have : pre = x := by rw [h1] at h4; exact (List.append_cancel_right h4).symm
      subst this
      exact h5

/-- The parser fails with exactly the faults. -/
theorem fromStr_error_iff {s : Str} {e : ParseError} :
    (∃ rest, fromStr u s = some (.error e, rest)) ↔ Fault u .val 0 s e := by
  constructor
  · rintro ⟨rest, h⟩
    unfold fromStr parse at h
    split at h
    · simp at h
    · next res t ht =>
      simp at h
      obtain ⟨rfl, rfl⟩ := h
      exact (parseValueN_ok (s.length + 1)).err _ _ _ (by simp [Toks.new]) ht
  · exact Fault.fromStr

end SV
