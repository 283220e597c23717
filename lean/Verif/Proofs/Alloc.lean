import Verif.Proofs.TraceErr
/-
Memory: apart from panics nothing depends on what can be allocated.
-/
namespace SV

variable {Id Γ : Type}

/-- `a` is a panic, out of fuel, or the same as `b`. -/
def Safe {E A : Type} (a b : Option (Out E A)) : Prop := a = none ∨ a = some .panic ∨ a = b

theorem Safe.rfl' {E A : Type} {a : Option (Out E A)} : Safe a a := .inr (.inr rfl)

theorem decItems_safe {f g : Id → List UInt8 → Option (Out DErr (Value Γ × List UInt8))} (h : ∀ t bs, Safe (f t bs) (g t bs)) : ∀ ts bs, Safe (decItems f ts bs) (decItems g ts bs)
  | [], _ => .rfl'
  | t :: ts, bs => by
    rw [decItems, decItems]
    rcases h t bs with h1 | h1 | h1
    · rw [h1]; exact .inl rfl
    · rw [h1]; exact .inr (.inl rfl)
    · rw [h1]
      rcases g t bs with _ | ⟨⟨v, r⟩⟩ | e | _
      · exact .rfl'
      · dsimp only
        rcases decItems_safe h ts r with h2 | h2 | h2
        · rw [h2]; exact .inl rfl
        · rw [h2]; exact .inr (.inl rfl)
        · rw [h2]; exact .rfl'
      · exact .rfl'
      · exact .rfl'

theorem decFields_safe {f g : Id → List UInt8 → Option (Out DErr (Value Γ × List UInt8))} (h : ∀ t bs, Safe (f t bs) (g t bs)) : ∀ ts bs, Safe (decFields f ts bs) (decFields g ts bs)
  | [], _ => .rfl'
  | t :: ts, bs => by
    rw [decFields, decFields]
    rcases h t.id bs with h1 | h1 | h1
    · rw [h1]; exact .inl rfl
    · rw [h1]; exact .inr (.inl rfl)
    · rw [h1]
      rcases g t.id bs with _ | ⟨⟨v, r⟩⟩ | e | _
      · exact .rfl'
      · dsimp only
        rcases decFields_safe h ts r with h2 | h2 | h2
        · rw [h2]; exact .inl rfl
        · rw [h2]; exact .inr (.inl rfl)
        · rw [h2]; exact .rfl'
      · exact .rfl'
      · exact .rfl'

theorem decUnnamed_safe (al : Nat → Bool) {f g : Id → List UInt8 → Option (Out DErr (Value Γ × List UInt8))} (h : ∀ t bs, Safe (f t bs) (g t bs)) (ts : List Id) (bs : List UInt8) :
    Safe (decUnnamed al f ts bs) (decUnnamed (fun _ => true) g ts bs) := by
  unfold decUnnamed
  split
  · exact .inr (.inl rfl)
  · rw [if_neg (by simp)]
    rcases decItems_safe h ts bs with h2 | h2 | h2
    · rw [h2]; exact .inl rfl
    · rw [h2]; exact .inr (.inl rfl)
    · rw [h2]; exact .rfl'

theorem decComposite_safe (al : Nat → Bool) {f g : Id → List UInt8 → Option (Out DErr (Value Γ × List UInt8))} (h : ∀ t bs, Safe (f t bs) (g t bs)) (fs : List (Field Id)) (bs : List UInt8) :
    Safe (decComposite al f fs bs) (decComposite (fun _ => true) g fs bs) := by
  unfold decComposite
  by_cases ha : (!al fs.length) = true
  · rw [if_pos ha]; exact .inr (.inl rfl)
  · rw [if_neg ha, if_neg (by simp : ¬ (!(fun _ => true) fs.length) = true)]
    by_cases hn : isNamed fs = true
    · rw [if_pos hn, if_pos hn]
      rcases decFields_safe h fs bs with h2 | h2 | h2
      · rw [h2]; exact .inl rfl
      · rw [h2]; exact .inr (.inl rfl)
      · rw [h2]; exact .rfl'
    · rw [if_neg hn, if_neg hn]
      rcases decItems_safe h (fs.map (fun f => f.id)) bs with h2 | h2 | h2
      · rw [h2]; exact .inl rfl
      · rw [h2]; exact .inr (.inl rfl)
      · rw [h2]; exact .rfl'

theorem mkVal_safe {mk : Composite Γ → Value Γ} {a b : Option (Out (DErr × List UInt8) (Composite Γ × List UInt8))} (h : Safe a b) : Safe (mkVal mk a) (mkVal mk b) := by
  rcases h with h | h | h
  · rw [h]; exact .inl rfl
  · rw [h]; exact .inr (.inl rfl)
  · rw [h]; exact .rfl'

theorem decN_safe (reg : Reg Id) (al : Nat → Bool) (ctx : Id → Γ) : ∀ n c t bs, Safe (decN reg al ctx n c t bs) (decN reg (fun _ => true) ctx n c t bs)
  | 0, _, _, _ => .rfl'
  | n + 1, c, t, bs => by
    rw [decN, decN]
    split
    · exact .rfl'
    · exact .rfl'
    · exact mkVal_safe (decUnnamed_safe al (decN_safe reg al ctx n _) _ _)
    · exact mkVal_safe (decComposite_safe al (decN_safe reg al ctx n _) _ _)
    · exact mkVal_safe (decComposite_safe al (decN_safe reg al ctx n _) _ _)

theorem decodeWith_safe (ctx : Id → Γ) (reg : Reg Id) (al : Nat → Bool) (t : Id) (bs : List UInt8) :
    decodeWith ctx reg al t bs = .panic ∨ decodeWith ctx reg al t bs = decodeWith ctx reg (fun _ => true) t bs := by
  obtain ⟨n, hn⟩ := (decodeWith_eq (ctx := ctx) (reg := reg) (al := al) (t := t) (bs := bs)).1 rfl
  rcases decN_safe reg al ctx n false t bs with h | h | h
  · rw [h] at hn; cases hn
  · rw [h] at hn; exact .inl (Option.some.inj hn).symm
  · rw [h] at hn
    exact .inr (decodeWith_eq.2 ⟨n, hn⟩).symm

theorem trItems_safe {f g : TDec Id} (h : ∀ p t bs, Safe (f p t bs) (g p t bs)) (path : Path) : ∀ ts idx vals bs, Safe (trItems f path ts idx vals bs) (trItems g path ts idx vals bs)
  | [], _, _, _ => .rfl'
  | t :: ts, idx, vals, bs => by
    rw [trItems, trItems]
    rcases h (path ++ [.index idx]) t bs with h1 | h1 | h1
    · rw [h1]; exact .inl rfl
    · rw [h1]; exact .inr (.inl rfl)
    · rw [h1]
      generalize g (path ++ [.index idx]) t bs = x
      rcases x with _ | ⟨⟨v, r⟩⟩ | e | _
      · exact .rfl'
      · exact trItems_safe h path ts _ _ r
      · exact .rfl'
      · exact .rfl'

theorem trNamedFields_safe {f g : TDec Id} (h : ∀ p t bs, Safe (f p t bs) (g p t bs)) (path : Path) : ∀ ts vals bs, Safe (trNamedFields f path ts vals bs) (trNamedFields g path ts vals bs)
  | [], _, _ => .rfl'
  | t :: ts, vals, bs => by
    rw [trNamedFields, trNamedFields]
    rcases h (path ++ [.field (t.name.getD "<unnamed>".toList)]) t.id bs with h1 | h1 | h1
    · rw [h1]; exact .inl rfl
    · rw [h1]; exact .inr (.inl rfl)
    · rw [h1]
      generalize g (path ++ [.field (t.name.getD "<unnamed>".toList)]) t.id bs = x
      rcases x with _ | ⟨⟨v, r⟩⟩ | e | _
      · exact .rfl'
      · exact trNamedFields_safe h path ts _ r
      · exact .rfl'
      · exact .rfl'

theorem trUnnamed_safe (al : Nat → Bool) {f g : TDec Id} (h : ∀ p t bs, Safe (f p t bs) (g p t bs)) (path : Path) (ts : List Id) (bs : List UInt8) :
    Safe (trUnnamed al f path ts bs) (trUnnamed (fun _ => true) g path ts bs) := by
  unfold trUnnamed
  split
  · exact .rfl'
  · split
    · exact .inr (.inl rfl)
    · rw [if_neg (by simp)]
      exact trItems_safe h path ts 0 [] bs

theorem trGroupOf_safe (al : Nat → Bool) {f g : TDec Id} (h : ∀ p t bs, Safe (f p t bs) (g p t bs)) (path : Path) (fs : List (Field Id)) (bs : List UInt8) :
    Safe (trGroupOf al f path fs bs) (trGroupOf (fun _ => true) g path fs bs) := by
  unfold trGroupOf
  split
  · exact trUnnamed_safe al h path _ bs
  · split
    · exact .inr (.inl rfl)
    · rw [if_neg (by simp)]
      exact trNamedFields_safe h path fs [] bs

theorem trMkVal_safe {ty : Id} {a b : Option (Out (TErr (Composite Id)) (Composite Id × List UInt8))} (h : Safe a b) : Safe (trMkVal ty a) (trMkVal ty b) := by
  rcases h with h | h | h
  · rw [h]; exact .inl rfl
  · rw [h]; exact .inr (.inl rfl)
  · rw [h]; exact .rfl'

theorem trMkVariant_safe {path : Path} {ty : Id} {name : Str} {a b : Option (Out (TErr (Composite Id)) (Composite Id × List UInt8))} (h : Safe a b) :
    Safe (trMkVariant path ty name a) (trMkVariant path ty name b) := by
  rcases h with h | h | h
  · rw [h]; exact .inl rfl
  · rw [h]; exact .inr (.inl rfl)
  · rw [h]; exact .rfl'

theorem trN_safe (reg : Reg Id) (al : Nat → Bool) : ∀ n c path t bs, Safe (trN reg al n c path t bs) (trN reg (fun _ => true) n c path t bs)
  | 0, _, _, _, _ => .rfl'
  | n + 1, c, path, t, bs => by
    rw [trN, trN]
    split
    · exact .rfl'
    · exact .rfl'
    · exact trMkVal_safe (trUnnamed_safe al (trN_safe reg al n _) _ _ _)
    · exact trMkVal_safe (trGroupOf_safe al (trN_safe reg al n _) _ _ _)
    · exact trMkVariant_safe (trGroupOf_safe al (trN_safe reg al n _) _ _ _)

theorem traceDecode_safe (reg : Reg Id) (al : Nat → Bool) (t : Id) (bs : List UInt8) :
    traceDecode reg al t bs = .panic ∨ traceDecode reg al t bs = traceDecode reg (fun _ => true) t bs := by
  obtain ⟨n, hn⟩ := (traceDecode_eq (reg := reg) (al := al) (t := t) (bs := bs)).1 rfl
  rcases trN_safe reg al n false [] t bs with h | h | h
  · rw [h] at hn; cases hn
  · rw [h] at hn; exact .inl (Option.some.inj hn).symm
  · rw [h] at hn
    exact .inr (traceDecode_eq.2 ⟨n, hn⟩).symm

/-- Why it failed. -/
def TErr.why {V : Type} : TErr V → DErr
  | .fromDecode e => e
  | .fromVisitor _ _ e => e

/-- The tracing decoder (`a`) panics only if the plain one (`b`) does; if it succeeds so does the other, with the same rest; if it fails, not for the limit, the other fails. -/
structure Sim {V A E B : Type} (a : Option (Out (TErr V) (A × List UInt8))) (b : Option (Out E (B × List UInt8))) : Prop where
  panic : a = some .panic → b = some .panic
  ok : ∀ v r, a = some (.ok (v, r)) → ∃ v', b = some (.ok (v', r))
  err : ∀ e, a = some (.err e) → e.why ≠ .tooManyEntries → ∃ e', b = some (.err e')

theorem Sim.none {V A E B : Type} {b : Option (Out E (B × List UInt8))} : Sim (none : Option (Out (TErr V) (A × List UInt8))) b := ⟨nofun, nofun, nofun⟩
theorem Sim.panics {V A E B : Type} : Sim (some .panic : Option (Out (TErr V) (A × List UInt8))) (some .panic : Option (Out E (B × List UInt8))) := ⟨fun _ => rfl, nofun, nofun⟩
theorem Sim.okay {V A E B : Type} {v : A} {w : B} {r : List UInt8} : Sim (some (.ok (v, r)) : Option (Out (TErr V) (A × List UInt8))) (some (.ok (w, r)) : Option (Out E (B × List UInt8))) :=
  ⟨nofun, fun _ _ h => by cases h; exact ⟨w, rfl⟩, nofun⟩
theorem Sim.fails {V A E B : Type} {e : TErr V} {e' : E} : Sim (some (.err e) : Option (Out (TErr V) (A × List UInt8))) (some (.err e') : Option (Out E (B × List UInt8))) :=
  ⟨nofun, nofun, fun _ _ _ => ⟨e', rfl⟩⟩
theorem Sim.limit {V A E B : Type} {e : TErr V} (he : e.why = .tooManyEntries) {b : Option (Out E (B × List UInt8))} : Sim (some (.err e) : Option (Out (TErr V) (A × List UInt8))) b :=
  ⟨nofun, nofun, fun _ h h' => by cases h; exact (h' he).elim⟩

theorem why_withOuter {V W : Type} (path : Path) (d : W) (f : V → W) (e : TErr V) : (e.withOuter path d f).why = e.why := by cases e <;> rfl
theorem why_mapSoFar {V W : Type} (f : V → W) (e : TErr V) : (e.mapSoFar f).why = e.why := by cases e <;> rfl

/-- Cases of a simulation. -/
theorem Sim.cases {V A E B : Type} {a : Option (Out (TErr V) (A × List UInt8))} {b : Option (Out E (B × List UInt8))} (h : Sim a b) :
    a = Option.none ∨ (a = some .panic ∧ b = some .panic) ∨ (∃ v w r, a = some (.ok (v, r)) ∧ b = some (.ok (w, r))) ∨
      (∃ e e', a = some (.err e) ∧ b = some (.err e')) ∨ ∃ e, a = some (.err e) ∧ e.why = .tooManyEntries := by
  rcases ha : a with _ | ⟨⟨v, r⟩⟩ | e | _
  · exact .inl rfl
  · obtain ⟨w, hw⟩ := h.ok v r ha
    exact .inr (.inr (.inl ⟨v, w, r, rfl, hw⟩))
  · by_cases he : e.why = .tooManyEntries
    · exact .inr (.inr (.inr (.inr ⟨e, rfl, he⟩)))
    · obtain ⟨e', h'⟩ := h.err e ha he
      exact .inr (.inr (.inr (.inl ⟨e, e', rfl, h'⟩)))
  · exact .inr (.inl ⟨rfl, h.panic ha⟩)

theorem trItems_sim {f : TDec Id} {g : Id → List UInt8 → Option (Out DErr (Value Γ × List UInt8))} (h : ∀ p t bs, Sim (f p t bs) (g t bs)) (path : Path) :
    ∀ ts idx vals bs, Sim (trItems f path ts idx vals bs) (decItems g ts bs)
  | [], _, _, _ => .okay
  | t :: ts, idx, vals, bs => by
    rw [trItems, decItems]
    rcases (h (path ++ [.index idx]) t bs).cases with h1 | ⟨h1, h2⟩ | ⟨v, w, r, h1, h2⟩ | ⟨e, e', h1, h2⟩ | ⟨e, h1, h2⟩
    · rw [h1]; exact .none
    · rw [h1, h2]; exact .panics
    · rw [h1, h2]
      dsimp only
      rcases (trItems_sim h path ts (idx + 1) (vals ++ [v]) r).cases with h1 | ⟨h1, h2⟩ | ⟨v, w, r, h1, h2⟩ | ⟨e, e', h1, h2⟩ | ⟨e, h1, h2⟩
      · rw [h1]; exact .none
      · rw [h1, h2]; exact .panics
      · rw [h1, h2]; exact .okay
      · rw [h1, h2]; exact .fails
      · rw [h1]; exact .limit h2
    · rw [h1, h2]; exact .fails
    · rw [h1]; exact .limit (by rw [why_withOuter]; exact h2)

theorem trNamedFields_sim {f : TDec Id} {g : Id → List UInt8 → Option (Out DErr (Value Γ × List UInt8))} (h : ∀ p t bs, Sim (f p t bs) (g t bs)) (path : Path) :
    ∀ ts vals bs, Sim (trNamedFields f path ts vals bs) (decFields g ts bs)
  | [], _, _ => .okay
  | t :: ts, vals, bs => by
    rw [trNamedFields, decFields]
    rcases (h (path ++ [.field (t.name.getD "<unnamed>".toList)]) t.id bs).cases with h1 | ⟨h1, h2⟩ | ⟨v, w, r, h1, h2⟩ | ⟨e, e', h1, h2⟩ | ⟨e, h1, h2⟩
    · rw [h1]; exact .none
    · rw [h1, h2]; exact .panics
    · rw [h1, h2]
      dsimp only
      rcases (trNamedFields_sim h path ts (vals ++ [(t.name.getD "<unnamed>".toList, v)]) r).cases with h1 | ⟨h1, h2⟩ | ⟨v, w, r, h1, h2⟩ | ⟨e, e', h1, h2⟩ | ⟨e, h1, h2⟩
      · rw [h1]; exact .none
      · rw [h1, h2]; exact .panics
      · rw [h1, h2]; exact .okay
      · rw [h1, h2]; exact .fails
      · rw [h1]; exact .limit h2
    · rw [h1, h2]; exact .fails
    · rw [h1]; exact .limit (by rw [why_withOuter]; exact h2)

theorem trUnnamed_sim (al : Nat → Bool) {f : TDec Id} {g : Id → List UInt8 → Option (Out DErr (Value Γ × List UInt8))} (h : ∀ p t bs, Sim (f p t bs) (g t bs)) (path : Path)
    (ts : List Id) (bs : List UInt8) : Sim (trUnnamed al f path ts bs) (decUnnamed al g ts bs) := by
  unfold trUnnamed decUnnamed
  split
  · exact .limit rfl
  · by_cases ha : (!al ts.length) = true
    · rw [if_pos ha, if_pos ha]; exact .panics
    · rw [if_neg ha, if_neg ha]
      rcases (trItems_sim h path ts 0 [] bs).cases with h1 | ⟨h1, h2⟩ | ⟨v, w, r, h1, h2⟩ | ⟨e, e', h1, h2⟩ | ⟨e, h1, h2⟩
      · rw [h1]; exact .none
      · rw [h1, h2]; exact .panics
      · rw [h1, h2]; exact .okay
      · rw [h1, h2]; exact .fails
      · rw [h1]; exact .limit h2

theorem trGroupOf_sim (al : Nat → Bool) {f : TDec Id} {g : Id → List UInt8 → Option (Out DErr (Value Γ × List UInt8))} (h : ∀ p t bs, Sim (f p t bs) (g t bs)) (path : Path)
    (fs : List (Field Id)) (bs : List UInt8) : Sim (trGroupOf al f path fs bs) (decComposite al g fs bs) := by
  unfold trGroupOf decComposite
  by_cases hn : isNamed fs = true
  · rw [if_neg (by simp [hn]), if_pos hn]
    by_cases ha : (!al fs.length) = true
    · rw [if_pos ha, if_pos ha]; exact .panics
    · rw [if_neg ha, if_neg ha]
      rcases (trNamedFields_sim h path fs [] bs).cases with h1 | ⟨h1, h2⟩ | ⟨v, w, r, h1, h2⟩ | ⟨e, e', h1, h2⟩ | ⟨e, h1, h2⟩
      · rw [h1]; exact .none
      · rw [h1, h2]; exact .panics
      · rw [h1, h2]; exact .okay
      · rw [h1, h2]; exact .fails
      · rw [h1]; exact .limit h2
  · rw [if_pos (by simpa using hn), if_neg hn]
    have := trUnnamed_sim al h path (fs.map (fun f => f.id)) bs
    unfold decUnnamed at this
    rwa [List.length_map] at this

theorem trMkVal_sim {ty : Id} {mk : Composite Γ → Value Γ} {a : Option (Out (TErr (Composite Id)) (Composite Id × List UInt8))} {b : Option (Out (DErr × List UInt8) (Composite Γ × List UInt8))}
    (h : Sim a b) : Sim (trMkVal ty a) (mkVal mk b) := by
  rcases h.cases with h1 | ⟨h1, h2⟩ | ⟨v, w, r, h1, h2⟩ | ⟨e, e', h1, h2⟩ | ⟨e, h1, h2⟩
  · rw [h1]; exact .none
  · rw [h1, h2]; exact .panics
  · rw [h1, h2]; exact .okay
  · rw [h1, h2]; exact .fails
  · rw [h1]; exact .limit (by rw [why_mapSoFar]; exact h2)

theorem trMkVariant_sim {path : Path} {ty : Id} {name : Str} {mk : Composite Γ → Value Γ} {a : Option (Out (TErr (Composite Id)) (Composite Id × List UInt8))}
    {b : Option (Out (DErr × List UInt8) (Composite Γ × List UInt8))} (h : Sim a b) : Sim (trMkVariant path ty name a) (mkVal mk b) := by
  rcases h.cases with h1 | ⟨h1, h2⟩ | ⟨v, w, r, h1, h2⟩ | ⟨e, e', h1, h2⟩ | ⟨e, h1, h2⟩
  · rw [h1]; exact .none
  · rw [h1, h2]; exact .panics
  · rw [h1, h2]; exact .okay
  · rw [h1, h2]; exact .fails
  · rw [h1]; exact .limit (by rw [why_withOuter]; exact h2)

theorem trN_sim (reg : Reg Id) (al : Nat → Bool) (ctx : Id → Γ) : ∀ n c path t bs, Sim (trN reg al n c path t bs) (decN reg al ctx n c t bs)
  | 0, _, _, _, _ => .none
  | n + 1, c, path, t, bs => by
    rw [trN, decN]
    rcases visit reg c t bs with e | ⟨ty, c', step⟩
    · exact .fails
    · cases step with
      | leaf l r => exact .okay
      | items ids r => exact trMkVal_sim (trUnnamed_sim al (trN_sim reg al ctx n _) _ _ _)
      | composite fs r => exact trMkVal_sim (trGroupOf_sim al (trN_sim reg al ctx n _) _ _ _)
      | variant name fs r => exact trMkVariant_sim (trGroupOf_sim al (trN_sim reg al ctx n _) _ _ _)

theorem traceDecode_sim (reg : Reg Id) (al : Nat → Bool) (ctx : Id → Γ) (t : Id) (bs : List UInt8) : Sim (some (traceDecode reg al t bs)) (some (decodeWith ctx reg al t bs)) := by
  obtain ⟨n, hn⟩ := (traceDecode_eq (reg := reg) (al := al) (t := t) (bs := bs)).1 rfl
  obtain ⟨m, hm⟩ := (decodeWith_eq (ctx := ctx) (reg := reg) (al := al) (t := t) (bs := bs)).1 rfl
  have h1 := trN_mono reg al (Nat.le_max_left n m) false _ _ _ _ hn
  have h2 := decN_mono reg al ctx (Nat.le_max_right n m) false _ _ _ hm
  rw [← h1, ← h2]
  exact trN_sim reg al ctx _ false [] t bs

end SV
