import Verif.Model.AnyReg
import Verif.Spec.Endless
import Verif.Proofs.Decode
/-
Proofs for C85: with which tables of types decoding ends.
-/
namespace SV

variable {Id Γ : Type}

/-! ### The tie to `Model/Decode` -/

theorem visitT_reg (reg : Reg Id) (c : Bool) (t : Id) (bs : List UInt8) : visitT reg.resolve c t bs = visit reg c t bs := rfl

theorem decT_reg (reg : Reg Id) (al : Nat → Bool) (ctx : Id → Γ) : ∀ n, decT reg.resolve al ctx n = decN reg al ctx n := by
  intro n
  induction n with
  | zero => rfl
  | succ n ih =>
    funext c t bs
    rw [decT, decN, visitT_reg, ih]
    rfl

/-! ### Fuel -/

theorem decT_succ (res : Table Id) (al : Nat → Bool) (ctx : Id → Γ) : ∀ n c, Ext (decT res al ctx n c) (decT res al ctx (n + 1) c) := by
  intro n
  induction n with
  | zero => intro c t bs r h; cases h
  | succ n ih =>
    intro c t bs r h
    rw [decT] at h ⊢
    split at h
    · exact h
    · exact h
    · exact mkVal_ext (fun r => decUnnamed_ext al (ih _) _ _ r) h
    · exact mkVal_ext (fun r => decComposite_ext al (ih _) _ _ r) h
    · exact mkVal_ext (fun r => decComposite_ext al (ih _) _ _ r) h

theorem decT_mono (res : Table Id) (al : Nat → Bool) (ctx : Id → Γ) {n m : Nat} (h : n ≤ m) (c : Bool) :
    Ext (decT res al ctx n c) (decT res al ctx m c) := by
  induction h with
  | refl => intro _ _ _ h; exact h
  | step _ ih => intro a b r h; exact decT_succ res al ctx _ _ _ _ _ (ih a b r h)

theorem limit_none {A : Type} {f : Nat → Option A} : limit f = none ↔ ∀ n, f n = none := by
  unfold limit
  split
  · next h => obtain ⟨n, r, hr⟩ := h; simp; exact ⟨n, by rw [hr]; simp⟩
  · next h => simp; intro n; cases hf : f n with
    | none => rfl
    | some r => exact absurd ⟨n, r, hf⟩ h

theorem limit_some {A : Type} {f : Nat → Option A} (hm : ∀ n m r, n ≤ m → f n = some r → f m = some r) {r : A} : limit f = some r ↔ ∃ n, f n = some r := by
  unfold limit
  split
  · next h =>
    have hs := h.choose_spec.choose_spec
    generalize h.choose_spec.choose = x at hs ⊢
    constructor
    · intro e; cases e; exact ⟨_, hs⟩
    · rintro ⟨n, hn⟩
      have h1 := hm _ (max h.choose n) _ (Nat.le_max_left _ _) hs
      have h2 := hm _ (max h.choose n) _ (Nat.le_max_right _ _) hn
      rw [h1] at h2
      cases h2; rfl
  · next h => exact ⟨(fun e => by cases e), fun ⟨n, hn⟩ => absurd ⟨n, r, hn⟩ h⟩

theorem decodeT_none {ctx : Id → Γ} {res : Table Id} {al : Nat → Bool} {t : Id} {bs : List UInt8} :
    decodeT ctx res al t bs = none ↔ ∀ n, decT res al ctx n false t bs = none := limit_none

theorem decodeT_some {ctx : Id → Γ} {res : Table Id} {al : Nat → Bool} {t : Id} {bs : List UInt8} {r} :
    decodeT ctx res al t bs = some r ↔ ∃ n, decT res al ctx n false t bs = some r :=
  limit_some (fun _ _ r hnm h => decT_mono res al ctx hnm false t bs r h)

/-! ### One step -/

theorem decT_error {res : Table Id} {al : Nat → Bool} {ctx : Id → Γ} {n : Nat} {c : Bool} {t : Id} {bs : List UInt8} {e : DErr} (h : visitT res c t bs = .error e) :
    decT res al ctx (n + 1) c t bs = some (.err e) := by
  rw [decT, h]

/-- A node ends if its parts do. -/
theorem decT_ends {res : Table Id} {al : Nat → Bool} {ctx : Id → Γ} {n : Nat} {c : Bool} {t : Id} {bs : List UInt8} {w : Visit Id} (h : visitT res c t bs = .ok w)
    {o} (ho : decItems (decT res al ctx n w.compact) w.step.children w.step.bytes = some o) : ∃ r, decT res al ctx (n + 1) c t bs = some r := by
  rw [decT, h]
  obtain ⟨ty, c', s⟩ := w
  cases s with
  | leaf l r => exact ⟨_, rfl⟩
  | items ts r =>
    simp only [DStep.children, DStep.bytes] at ho
    simp only [decUnnamed, ho]
    split
    · exact ⟨_, rfl⟩
    · cases o <;> exact ⟨_, rfl⟩
  | composite fs r =>
    simp only [DStep.children, DStep.bytes] at ho
    simp only [decComposite_eq, ho]
    split
    · exact ⟨_, rfl⟩
    · cases o <;> exact ⟨_, rfl⟩
  | variant nm fs r =>
    simp only [DStep.children, DStep.bytes] at ho
    simp only [decComposite_eq, ho]
    split
    · exact ⟨_, rfl⟩
    · cases o <;> exact ⟨_, rfl⟩

/-- What is read, is read for the parts. -/
theorem decT_ok {res : Table Id} {al : Nat → Bool} {ctx : Id → Γ} {n : Nat} {c : Bool} {t : Id} {bs r : List UInt8} {v : Value Γ} (h : decT res al ctx (n + 1) c t bs = some (.ok (v, r))) :
    ∃ w, visitT res c t bs = .ok w ∧ ∃ vs, decItems (decT res al ctx n w.compact) w.step.children w.step.bytes = some (.ok (vs, r)) := by
  rw [decT] at h
  cases hv : visitT res c t bs with
  | error e => rw [hv] at h; cases h
  | ok w =>
    refine ⟨w, rfl, ?_⟩
    rw [hv] at h
    obtain ⟨ty, c', s⟩ := w
    have hu : ∀ (ts : List Id) (b : List UInt8) (cs : Composite Γ), decUnnamed al (decT res al ctx n c') ts b = some (.ok (cs, r)) →
        ∃ vs, decItems (decT res al ctx n c') ts b = some (.ok (vs, r)) := by
      intro ts b cs hx
      unfold decUnnamed at hx
      split at hx
      · cases hx
      · cases hi : decItems (decT res al ctx n c') ts b with
        | none => rw [hi] at hx; cases hx
        | some o => rw [hi] at hx; cases o with
          | ok y => obtain ⟨vs, r'⟩ := y; cases hx; exact ⟨vs, rfl⟩
          | err e => cases hx
          | panic => cases hx
    have hc : ∀ (fs : List (Field Id)) (b : List UInt8) (cs : Composite Γ), decComposite al (decT res al ctx n c') fs b = some (.ok (cs, r)) →
        ∃ vs, decItems (decT res al ctx n c') (fs.map (fun f => f.id)) b = some (.ok (vs, r)) := by
      intro ts b cs hx
      rw [decComposite_eq] at hx
      split at hx
      · cases hx
      · cases hi : decItems (decT res al ctx n c') (ts.map (fun f => f.id)) b with
        | none => rw [hi] at hx; cases hx
        | some o => rw [hi] at hx; cases o with
          | ok y => obtain ⟨vs, r'⟩ := y; cases hx; exact ⟨vs, rfl⟩
          | err e => cases hx
          | panic => cases hx
    cases s with
    | leaf l b => cases h; exact ⟨[], rfl⟩
    | items ts b => obtain ⟨cs, -, h⟩ := mkVal_ok h; exact hu _ _ _ h
    | composite fs b => obtain ⟨cs, -, h⟩ := mkVal_ok h; exact hc _ _ _ h
    | variant nm fs b => obtain ⟨cs, -, h⟩ := mkVal_ok h; exact hc _ _ _ h

/-- If memory can be had a node does not end if its parts do not, and is read if they are. -/
theorem decT_parts {res : Table Id} {al : Nat → Bool} (hal : ∀ n, al n = true) {ctx : Id → Γ} {n : Nat} {c : Bool} {t : Id} {bs : List UInt8} {w : Visit Id} (h : visitT res c t bs = .ok w) :
    (decItems (decT res al ctx n w.compact) w.step.children w.step.bytes = none → decT res al ctx (n + 1) c t bs = none) ∧
    ∀ vs r, decItems (decT res al ctx n w.compact) w.step.children w.step.bytes = some (.ok (vs, r)) → ∃ v, decT res al ctx (n + 1) c t bs = some (.ok (v, r)) := by
  rw [decT, h]
  obtain ⟨ty, c', s⟩ := w
  cases s with
  | leaf l r =>
    refine ⟨fun ho => ?_, fun vs r' ho => ?_⟩
    · simp [DStep.children, decItems] at ho
    · simp only [DStep.children, DStep.bytes, decItems, Option.some.injEq, Out.ok.injEq, Prod.mk.injEq] at ho
      exact ⟨_, by rw [ho.2]⟩
  | items ts r =>
    refine ⟨fun ho => ?_, fun vs r' ho => ?_⟩ <;> simp only [DStep.children, DStep.bytes] at ho
    · simp [decUnnamed, ho, hal, mkVal]
    · simp [decUnnamed, ho, hal, mkVal]
  | composite fs r =>
    refine ⟨fun ho => ?_, fun vs r' ho => ?_⟩ <;> simp only [DStep.children, DStep.bytes] at ho
    · simp [decComposite_eq, ho, hal, mkVal]
    · simp [decComposite_eq, ho, hal, mkVal]
  | variant nm fs r =>
    refine ⟨fun ho => ?_, fun vs r' ho => ?_⟩ <;> simp only [DStep.children, DStep.bytes] at ho
    · simp [decComposite_eq, ho, hal, mkVal]
    · simp [decComposite_eq, ho, hal, mkVal]

/-! ### What a node reads -/

theorem compactDec_shorter {bits n : Nat} (hb : 6 ≤ bits) {bs r : List UInt8} (h : compactDec bits bs = some (n, r)) : r.length < bs.length := by
  obtain ⟨p, rfl, hp, -⟩ := compactDec_sound hb h
  have : p ≠ [] := isCompact_ne_nil hp
  cases p with
  | nil => exact absurd rfl this
  | cons a p => simp; omega

theorem readPrim_shorter {p : Prim} {bs r : List UInt8} {l : Leaf} (h : readPrim p bs = .ok (l, r)) : r.length < bs.length := by
  have hu : ∀ k, 0 < k → readUint k bs = .ok (l, r) → r.length < bs.length := by
    intro k hk h
    unfold readUint at h
    cases ht : takeN k bs with
    | none => rw [ht] at h; cases h
    | some x =>
      obtain ⟨q, r'⟩ := x
      rw [ht] at h
      simp only at h
      split at h
      · cases h; obtain ⟨rfl, hq⟩ := takeN_eq.1 ht; simp; omega
      · cases h
  have hi : ∀ k, 0 < k → readInt k bs = .ok (l, r) → r.length < bs.length := by
    intro k hk h
    unfold readInt at h
    cases ht : takeN k bs with
    | none => rw [ht] at h; cases h
    | some x =>
      obtain ⟨q, r'⟩ := x
      rw [ht] at h
      simp only at h
      split at h
      · cases h; obtain ⟨rfl, hq⟩ := takeN_eq.1 ht; simp; omega
      · cases h
  have hb : ∀ mk, read32 mk bs = .ok (l, r) → r.length < bs.length := by
    intro mk h
    unfold read32 at h
    split at h
    · cases h; simp; omega
    · cases h
  cases p with
  | bool =>
    cases bs with
    | nil => cases h
    | cons b bs =>
      simp only [readPrim] at h
      split at h
      · cases h; simp
      · split at h
        · cases h; simp
        · cases h
  | char =>
    simp only [readPrim] at h
    cases ht : takeN 4 bs with
    | none => rw [ht] at h; cases h
    | some x =>
      obtain ⟨q, r'⟩ := x
      rw [ht] at h
      simp only at h
      split at h
      · cases h; obtain ⟨rfl, hq⟩ := takeN_eq.1 ht; simp; omega
      · cases h
  | str =>
    simp only [readPrim] at h
    cases hc : compactDec 64 bs with
    | none => rw [hc] at h; cases h
    | some x =>
      obtain ⟨n, r1⟩ := x
      rw [hc] at h
      simp only at h
      have := compactDec_shorter (by decide) hc
      cases ht : takeN n r1 with
      | none => rw [ht] at h; cases h
      | some x =>
        obtain ⟨q, r'⟩ := x
        rw [ht] at h
        simp only at h
        obtain ⟨rfl, hq⟩ := takeN_eq.1 ht
        split at h
        · cases h
        · cases h; simp at this; omega
  | u8 => exact hu 1 (by decide) h
  | u16 => exact hu 2 (by decide) h
  | u32 => exact hu 4 (by decide) h
  | u64 => exact hu 8 (by decide) h
  | u128 => exact hu 16 (by decide) h
  | u256 => exact hb _ h
  | i8 => exact hi 1 (by decide) h
  | i16 => exact hi 2 (by decide) h
  | i32 => exact hi 4 (by decide) h
  | i64 => exact hi 8 (by decide) h
  | i128 => exact hi 16 (by decide) h
  | i256 => exact hb _ h

theorem readCompactPrim_shorter {p : Prim} {bs r : List UInt8} {l : Leaf} (h : readCompactPrim p bs = .ok (l, r)) : r.length < bs.length := by
  have hu : ∀ k, 6 ≤ k → readCompact k bs = .ok (l, r) → r.length < bs.length := by
    intro k hk h
    unfold readCompact at h
    cases hc : compactDec k bs with
    | none => rw [hc] at h; cases h
    | some x =>
      obtain ⟨n, r1⟩ := x
      rw [hc] at h
      simp only at h
      split at h
      · cases h; exact compactDec_shorter hk hc
      · cases h
  cases p <;> first | exact hu _ (by decide) h | cases h

theorem leafStep_ok {x : Except DErr (Leaf × List UInt8)} {s : DStep Id} (h : leafStep x = .ok s) : ∃ l r, x = .ok (l, r) ∧ s = .leaf l r := by
  cases x with
  | error e => cases h
  | ok y => obtain ⟨l, r⟩ := y; cases h; exact ⟨l, r, rfl, rfl⟩

theorem visitCompactT_step {res : Table Id} {t : Id} {bs : List UInt8} {s : DStep Id} (h : visitCompactT res t bs = .ok s) :
    (s.bytes.length < bs.length ∧ s.children = []) ∨ (s.bytes = bs ∧ Inline res true t true s.children) := by
  unfold visitCompactT at h
  split at h
  · cases h
  · obtain ⟨l, r, h', rfl⟩ := leafStep_ok h; exact .inl ⟨readCompactPrim_shorter h', rfl⟩
  · next fs ht =>
    split at h
    · next h1 =>
      cases h
      match fs, h1, ht with
      | [f], _, ht => exact .inr ⟨rfl, .compactComposite ht⟩
    · cases h
  · next ts ht =>
    split at h
    · next h1 =>
      cases h
      match ts, h1, ht with
      | [f], _, ht => exact .inr ⟨rfl, .compactTuple ht⟩
    · cases h
  · cases h

theorem visitPlainT_step {res : Table Id} {t : Id} {bs : List UInt8} {s : DStep Id} (h : visitPlainT res t bs = .ok s) :
    s.bytes.length < bs.length ∨ (s.bytes = bs ∧ Inline res false t false s.children) := by
  unfold visitPlainT at h
  split at h
  · cases h
  · obtain ⟨l, r, h', rfl⟩ := leafStep_ok h; exact .inl (readPrim_shorter h')
  · next ht => cases h; exact .inr ⟨rfl, .composite ht⟩
  · next ht => cases h; exact .inr ⟨rfl, .tuple ht⟩
  · next ht => cases h; exact .inr ⟨rfl, .array ht⟩
  · cases hc : compactDec 64 bs with
    | none => rw [hc] at h; cases h
    | some x => rw [hc] at h; cases h; exact .inl (compactDec_shorter (by decide) hc)
  · cases bs with
    | nil => cases h
    | cons i bs =>
      simp only at h
      split at h
      · cases h
      · cases h; exact .inl (by simp [DStep.bytes])
  · next st o ht =>
    cases hc : bitsDec st o bs with
    | none => rw [hc] at h; cases h
    | some x =>
      obtain ⟨b, r⟩ := x
      rw [hc] at h; cases h
      obtain ⟨p, q, rfl, hp, -⟩ := bitsDec_sound hc
      have : p ≠ [] := isCompact_ne_nil hp
      cases p with
      | nil => exact absurd rfl this
      | cons a p => exact .inl (by simp [DStep.bytes]; omega)
  · cases h

theorem visitT_step {res : Table Id} {c : Bool} {t : Id} {bs : List UInt8} {w : Visit Id} (h : visitT res c t bs = .ok w) :
    w.step.bytes.length < bs.length ∨ (w.step.bytes = bs ∧ Inline res c t w.compact w.step.children) := by
  unfold visitT at h
  split at h
  · next hc =>
    subst hc
    cases hv : visitCompactT res t bs with
    | error e => rw [hv] at h; cases h
    | ok s => rw [hv] at h; cases h; exact (visitCompactT_step hv).imp And.left id
  · next hc =>
    have hc : c = false := by simpa using hc
    subst hc
    split at h
    · next u ht =>
      cases hv : visitCompactT res u bs with
      | error e => rw [hv] at h; cases h
      | ok s => rw [hv] at h; cases h; exact (visitCompactT_step hv).imp And.left (fun h => ⟨h.1, .compact ht h.2⟩)
    · cases hv : visitPlainT res t bs with
      | error e => rw [hv] at h; cases h
      | ok s => rw [hv] at h; cases h; exact visitPlainT_step hv

theorem visitCompactT_inline {res : Table Id} {t : Id} {c' : Bool} {ts : List Id} (h : Inline res true t c' ts) (bs : List UInt8) :
    c' = true ∧ ∃ s, visitCompactT res t bs = .ok s ∧ s.children = ts ∧ s.bytes = bs := by
  cases h with
  | compactComposite h => exact ⟨rfl, _, by rw [visitCompactT, h]; rfl, rfl, rfl⟩
  | compactTuple h => exact ⟨rfl, _, by rw [visitCompactT, h]; rfl, rfl, rfl⟩

theorem visitT_inline {res : Table Id} {c : Bool} {t : Id} {c' : Bool} {ts : List Id} (h : Inline res c t c' ts) (bs : List UInt8) :
    ∃ w, visitT res c t bs = .ok w ∧ w.compact = c' ∧ w.step.children = ts ∧ w.step.bytes = bs := by
  cases c with
  | true =>
    obtain ⟨rfl, s, hs, h1, h2⟩ := visitCompactT_inline h bs
    exact ⟨⟨t, true, s⟩, by rw [visitT, if_pos rfl, hs], rfl, h1, h2⟩
  | false =>
    cases h with
    | composite h => exact ⟨⟨t, false, .composite _ bs⟩, by simp [visitT, h, visitPlainT], rfl, rfl, rfl⟩
    | tuple h => exact ⟨⟨t, false, .items _ bs⟩, by simp [visitT, h, visitPlainT], rfl, rfl, rfl⟩
    | array h => exact ⟨⟨t, false, .items _ bs⟩, by simp [visitT, h, visitPlainT], rfl, rfl, rfl⟩
    | @compact _ u _ _ h i =>
      obtain ⟨rfl, s, hs, h1, h2⟩ := visitCompactT_inline i bs
      exact ⟨⟨u, true, s⟩, by simp [visitT, h, hs], rfl, h1, h2⟩

/-! ### Values without bytes -/

theorem decItems_consumes {res : Table Id} {c : Bool} {dec : Id → List UInt8 → Option (Out DErr (Value Γ × List UInt8))}
    (hd : ∀ t bs v r, dec t bs = some (.ok (v, r)) → r.length ≤ bs.length ∧ (r.length = bs.length → r = bs ∧ NoBytes res c t)) :
    ∀ ts bs vs r, decItems dec ts bs = some (.ok (vs, r)) → r.length ≤ bs.length ∧ (r.length = bs.length → r = bs ∧ ∀ u ∈ ts, NoBytes res c u) := by
  intro ts
  induction ts with
  | nil => intro bs vs r h; cases h; exact ⟨Nat.le_refl _, fun _ => ⟨rfl, by simp⟩⟩
  | cons t ts ih =>
    intro bs vs r h
    simp only [decItems] at h
    cases h1 : dec t bs with
    | none => rw [h1] at h; cases h
    | some o =>
      rw [h1] at h
      cases o with
      | panic => cases h
      | err e => cases h
      | ok x =>
        obtain ⟨v, r1⟩ := x
        simp only at h
        cases h2 : decItems dec ts r1 with
        | none => rw [h2] at h; cases h
        | some o =>
          rw [h2] at h
          cases o with
          | panic => cases h
          | err e => cases h
          | ok x =>
            obtain ⟨vs', r2⟩ := x
            cases h
            have a := hd _ _ _ _ h1
            have b := ih _ _ _ h2
            refine ⟨by omega, fun e => ?_⟩
            obtain ⟨e1, n1⟩ := a.2 (by omega)
            obtain ⟨e2, n2⟩ := b.2 (by omega)
            refine ⟨by rw [e2, e1], ?_⟩
            intro u hu
            rcases List.mem_cons.1 hu with rfl | hu
            · exact n1
            · exact n2 u hu

theorem decT_consumes (res : Table Id) (al : Nat → Bool) (ctx : Id → Γ) : ∀ n c t bs v r, decT res al ctx n c t bs = some (.ok (v, r)) →
    r.length ≤ bs.length ∧ (r.length = bs.length → r = bs ∧ NoBytes res c t) := by
  intro n
  induction n with
  | zero => intro c t bs v r h; cases h
  | succ n ih =>
    intro c t bs v r h
    obtain ⟨w, hw, vs, hi⟩ := decT_ok h
    have hc := decItems_consumes (fun t bs v r => ih w.compact t bs v r) _ _ _ _ hi
    rcases visitT_step hw with hl | ⟨he, hin⟩
    · exact ⟨by omega, fun e => by omega⟩
    · rw [he] at hc
      exact ⟨hc.1, fun e => ⟨(hc.2 e).1, .mk hin (hc.2 e).2⟩⟩

theorem decItems_noBytes {res : Table Id} {al : Nat → Bool} {ctx : Id → Γ} {c : Bool} {bs : List UInt8} : ∀ ts : List Id,
    (∀ u ∈ ts, ∃ n v, decT res al ctx n c u bs = some (.ok (v, bs))) → ∃ n vs, decItems (decT res al ctx n c) ts bs = some (.ok (vs, bs)) := by
  intro ts
  induction ts with
  | nil => intro _; exact ⟨0, [], rfl⟩
  | cons t ts ih =>
    intro h
    obtain ⟨n1, v, h1⟩ := h t (by simp)
    obtain ⟨n2, vs, h2⟩ := ih (fun u hu => h u (List.mem_cons_of_mem _ hu))
    have h1 := decT_mono res al ctx (Nat.le_max_left n1 n2) _ _ _ _ h1
    have h2 := decItems_ext (decT_mono res al ctx (Nat.le_max_right n1 n2) c) _ _ _ h2
    exact ⟨max n1 n2, v :: vs, by simp only [decItems, h1, h2]⟩

theorem decT_noBytes {res : Table Id} {al : Nat → Bool} (hal : ∀ n, al n = true) {ctx : Id → Γ} {c : Bool} {t : Id} (h : NoBytes res c t) (bs : List UInt8) :
    ∃ n v, decT res al ctx n c t bs = some (.ok (v, bs)) := by
  induction h with
  | @mk c t c' ts hin _ ih =>
    obtain ⟨n, vs, hi⟩ := decItems_noBytes ts ih
    obtain ⟨w, hw, h1, h2, h3⟩ := visitT_inline hin bs
    rw [← h1, ← h2] at hi
    have hi' : decItems (decT res al ctx n w.compact) w.step.children w.step.bytes = some (.ok (vs, bs)) := by rw [h3]; exact hi
    obtain ⟨v, hv⟩ := (decT_parts hal hw).2 _ _ hi'
    exact ⟨n + 1, v, hv⟩

/-! ### Types without end -/

theorem decItems_append {dec : Id → List UInt8 → Option (Out DErr (Value Γ × List UInt8))} {post : List Id} : ∀ {pre : List Id} {bs r : List UInt8} {vs},
    decItems dec pre bs = some (.ok (vs, r)) → (decItems dec post r = none ↔ decItems dec (pre ++ post) bs = none) := by
  intro pre
  induction pre with
  | nil => intro bs r vs h; cases h; rfl
  | cons t pre ih =>
    intro bs r vs h
    simp only [decItems, List.cons_append] at h ⊢
    cases h1 : dec t bs with
    | none => rw [h1] at h; cases h
    | some o =>
      rw [h1] at h
      cases o with
      | panic => cases h
      | err e => cases h
      | ok x =>
        obtain ⟨v, r1⟩ := x
        simp only at h ⊢
        cases h2 : decItems dec pre r1 with
        | none => rw [h2] at h; cases h
        | some o =>
          rw [h2] at h
          cases o with
          | panic => cases h
          | err e => cases h
          | ok x =>
            obtain ⟨vs', r2⟩ := x
            cases h
            rw [ih h2]
            cases decItems dec (pre ++ post) r1 with
            | none => simp
            | some o => cases o <;> simp

/-- With too little fuel for what comes before, or with enough for it. -/
theorem decItems_none_append {dec : Id → List UInt8 → Option (Out DErr (Value Γ × List UInt8))} {post : List Id} : ∀ {pre : List Id} {bs : List UInt8},
    decItems dec pre bs = none → decItems dec (pre ++ post) bs = none := by
  intro pre
  induction pre with
  | nil => intro bs h; cases h
  | cons t pre ih =>
    intro bs h
    simp only [decItems, List.cons_append] at h ⊢
    cases h1 : dec t bs with
    | none => rfl
    | some o =>
      rw [h1] at h
      cases o with
      | panic => cases h
      | err e => cases h
      | ok x =>
        obtain ⟨v, r1⟩ := x
        simp only at h ⊢
        cases h2 : decItems dec pre r1 with
        | none => rw [ih h2]
        | some o => rw [h2] at h; cases o <;> cases h

/-- Parts: if one is decoded without end after those before it, all are. -/
theorem decItems_stuck {res : Table Id} {al : Nat → Bool} {ctx : Id → Γ} {c : Bool} {pre post : List Id} {u : Id} {bs r : List UInt8} {m : Nat} {vs}
    (h : decItems (decT res al ctx m c) pre bs = some (.ok (vs, r))) (n : Nat) (hu : decT res al ctx n c u r = none) :
    decItems (decT res al ctx n c) (pre ++ u :: post) bs = none := by
  cases hp : decItems (decT res al ctx n c) pre bs with
  | none => exact decItems_none_append hp
  | some o =>
    have h1 := decItems_ext (decT_mono res al ctx (Nat.le_max_left m n) c) _ _ _ h
    have h2 := decItems_ext (decT_mono res al ctx (Nat.le_max_right m n) c) _ _ _ hp
    rw [h1] at h2
    cases h2
    rw [← decItems_append hp]
    simp only [decItems, hu]

theorem decT_endless {res : Table Id} {al : Nat → Bool} (hal : ∀ n, al n = true) {ctx : Id → Γ} : ∀ n x (bs : List UInt8), Endless res x → decT res al ctx n x.1 x.2 bs = none := by
  intro n
  induction n with
  | zero => intro x bs _; rfl
  | succ n ih =>
    rintro x bs ⟨f, rfl, hf⟩
    have hn : Endless res (f 1) := ⟨fun k => f (k + 1), rfl, fun k => hf (k + 1)⟩
    obtain ⟨pre, post, hin, hpre⟩ := hf 0
    obtain ⟨w, hw, h1, h2, h3⟩ := visitT_inline hin bs
    refine (decT_parts hal hw).1 ?_
    rw [h1, h2, h3]
    obtain ⟨m, vs, hm⟩ := decItems_noBytes (res := res) (al := al) (ctx := ctx) (c := (f (0 + 1)).1) (bs := bs) pre (fun u hu => decT_noBytes hal (hpre u hu) bs)
    exact decItems_stuck hm n (ih (f 1) bs hn)

/-! ### What does not end comes to a type without end -/

theorem decItems_first_stuck {res : Table Id} {al : Nat → Bool} {ctx : Id → Γ} {c : Bool} : ∀ (ts : List Id) (bs : List UInt8), (∀ n, decItems (decT res al ctx n c) ts bs = none) →
    ∃ pre u post r, ts = pre ++ u :: post ∧ Passes res al ctx c pre bs r ∧ ∀ n, decT res al ctx n c u r = none := by
  intro ts
  induction ts with
  | nil => intro bs h; have := h 0; cases this
  | cons t ts ih =>
    intro bs h
    by_cases hs : ∀ n, decT res al ctx n c t bs = none
    · exact ⟨[], t, ts, bs, rfl, rfl, hs⟩
    · simp only [Classical.not_forall] at hs
      obtain ⟨n, hn⟩ := hs
      cases ho : decT res al ctx n c t bs with
      | none => exact absurd ho hn
      | some o =>
        have hh := h n
        simp only [decItems, ho] at hh
        cases o with
        | panic => cases hh
        | err e => cases hh
        | ok x =>
          obtain ⟨v, r1⟩ := x
          obtain ⟨pre, u, post, r, rfl, hp, hu⟩ := ih r1 (by
            intro m
            cases hm : decItems (decT res al ctx m c) ts r1 with
            | none => rfl
            | some o =>
              have h1 := decT_mono res al ctx (Nat.le_max_left n m) _ _ _ _ ho
              have h2 := decItems_ext (decT_mono res al ctx (Nat.le_max_right n m) c) _ _ _ hm
              have h3 := h (max n m)
              simp only [decItems, h1, h2] at h3
              cases o <;> cases h3)
          exact ⟨t :: pre, u, post, r, rfl, ⟨n, v, r1, ho, hp⟩, hu⟩

theorem passes_consumes {res : Table Id} {al : Nat → Bool} {ctx : Id → Γ} {c : Bool} : ∀ {ts : List Id} {bs r : List UInt8}, Passes res al ctx c ts bs r →
    r.length ≤ bs.length ∧ (r.length = bs.length → r = bs ∧ ∀ u ∈ ts, NoBytes res c u) := by
  intro ts
  induction ts with
  | nil => rintro bs r rfl; exact ⟨Nat.le_refl _, fun _ => ⟨rfl, by simp⟩⟩
  | cons t ts ih =>
    rintro bs r ⟨n, v, r', h, hp⟩
    have a := decT_consumes res al ctx _ _ _ _ _ _ h
    have b := ih hp
    refine ⟨by omega, fun e => ?_⟩
    obtain ⟨e1, n1⟩ := a.2 (by omega)
    obtain ⟨e2, n2⟩ := b.2 (by omega)
    refine ⟨by rw [e2, e1], ?_⟩
    intro u hu
    rcases List.mem_cons.1 hu with rfl | hu
    · exact n1
    · exact n2 u hu

theorem passes_items {res : Table Id} {al : Nat → Bool} {ctx : Id → Γ} {c : Bool} : ∀ {ts : List Id} {bs r : List UInt8}, Passes res al ctx c ts bs r →
    ∃ n vs, decItems (decT res al ctx n c) ts bs = some (.ok (vs, r)) := by
  intro ts
  induction ts with
  | nil => rintro bs r rfl; exact ⟨0, [], rfl⟩
  | cons t ts ih =>
    rintro bs r ⟨n1, v, r', h1, hp⟩
    obtain ⟨n2, vs, h2⟩ := ih hp
    have h1 := decT_mono res al ctx (Nat.le_max_left n1 n2) _ _ _ _ h1
    have h2 := decItems_ext (decT_mono res al ctx (Nat.le_max_right n1 n2) c) _ _ _ h2
    exact ⟨max n1 n2, v :: vs, by simp only [decItems, h1, h2]⟩

theorem opens_visit {res : Table Id} {c : Bool} {t : Id} {bs : List UInt8} {c' : Bool} {ts : List Id} {r : List UInt8} (h : OpensInto res c t bs c' ts r) :
    ∃ w, visitT res c t bs = .ok w ∧ w.compact = c' ∧ w.step.children = ts ∧ w.step.bytes = r := by
  cases h with
  | inline h => exact visitT_inline h bs
  | @sequence _ u n p _ h hp hn =>
    exact ⟨⟨t, false, .items (List.replicate n u) r⟩, by simp [visitT, h, visitPlainT, compactDec_complete hp hn], rfl, rfl, rfl⟩
  | @variant _ pre d post _ h first =>
    refine ⟨⟨t, false, .variant d.name d.fields r⟩, ?_, rfl, rfl, rfl⟩
    have hf : (pre ++ d :: post).find? (fun v => v.index == d.index) = some d := by
      rw [List.find?_append, List.find?_eq_none.2 (by intro e he; simp; exact first e he)]
      simp
    simp [visitT, h, visitPlainT, hf]

theorem visit_opens {res : Table Id} {c : Bool} {t : Id} {bs : List UInt8} {w : Visit Id} (h : visitT res c t bs = .ok w) (hne : w.step.children ≠ []) :
    OpensInto res c t bs w.compact w.step.children w.step.bytes := by
  rcases visitT_step h with hl | ⟨he, hin⟩
  · unfold visitT at h
    split at h
    · next hc =>
      cases hv : visitCompactT res t bs with
      | error e => rw [hv] at h; cases h
      | ok s =>
        rw [hv] at h; cases h
        rcases visitCompactT_step hv with ⟨-, h⟩ | ⟨h, -⟩
        · exact absurd h hne
        · simp only at hl; rw [h] at hl; omega
    · next hc =>
      have hc : c = false := by simpa using hc
      subst hc
      split at h
      · next u ht =>
        cases hv : visitCompactT res u bs with
        | error e => rw [hv] at h; cases h
        | ok s =>
          rw [hv] at h; cases h
          rcases visitCompactT_step hv with ⟨-, h⟩ | ⟨h, -⟩
          · exact absurd h hne
          · simp only at hl; rw [h] at hl; omega
      · cases hv : visitPlainT res t bs with
        | error e => rw [hv] at h; cases h
        | ok s =>
          rw [hv] at h; cases h
          simp only at hl hne ⊢
          unfold visitPlainT at hv
          split at hv
          · cases hv
          · obtain ⟨l, r, h', rfl⟩ := leafStep_ok hv; exact absurd rfl hne
          · cases hv; exact absurd hl (Nat.lt_irrefl _)
          · cases hv; exact absurd hl (Nat.lt_irrefl _)
          · cases hv; exact absurd hl (Nat.lt_irrefl _)
          · next u ht =>
            cases hc : compactDec 64 bs with
            | none => rw [hc] at hv; cases hv
            | some x =>
              obtain ⟨n, r⟩ := x
              rw [hc] at hv; cases hv
              obtain ⟨p, rfl, hp, hn⟩ := compactDec_sound (by decide) hc
              exact .sequence ht hp hn
          · next vs ht =>
            cases bs with
            | nil => cases hv
            | cons i bs =>
              simp only at hv
              split at hv
              · cases hv
              · next d hd =>
                cases hv
                obtain ⟨hi, pre, post, rfl, hpre⟩ := List.find?_eq_some_iff_append.1 hd
                have hi : d.index = i := by simpa using hi
                subst hi
                refine .variant ht ?_
                intro e he
                simpa using hpre e he
          · next st o ht =>
            cases hc : bitsDec st o bs with
            | none => rw [hc] at hv; cases hv
            | some x => rw [hc] at hv; cases hv; exact absurd rfl hne
          · cases hv
  · rw [he]; exact .inline hin

/-- Decoding that does not end is in a part that does not end. -/
theorem stuck_step {res : Table Id} {al : Nat → Bool} {ctx : Id → Γ} {c : Bool} {t : Id} {bs : List UInt8} (h : ∀ n, decT res al ctx n c t bs = none) :
    ∃ c' pre u post r r', OpensInto res c t bs c' (pre ++ u :: post) r ∧ Passes res al ctx c' pre r r' ∧ ∀ n, decT res al ctx n c' u r' = none := by
  cases hv : visitT res c t bs with
  | error e => have := h 1; rw [decT_error hv] at this; cases this
  | ok w =>
    obtain ⟨pre, u, post, r, he, hp, hu⟩ := decItems_first_stuck (res := res) (al := al) (ctx := ctx) (c := w.compact) w.step.children w.step.bytes (by
      intro n
      cases hi : decItems (decT res al ctx n w.compact) w.step.children w.step.bytes with
      | none => rfl
      | some o => obtain ⟨r, hr⟩ := decT_ends hv hi; rw [h] at hr; cases hr)
    have ho := visit_opens hv (by rw [he]; simp)
    rw [he] at ho
    exact ⟨w.compact, pre, u, post, _, r, ho, hp, hu⟩

theorem comesTo_trans {res : Table Id} {al : Nat → Bool} {ctx : Id → Γ} {x y z : Bool × Id} {a b c : List UInt8} (h : ComesTo res al ctx x a y b) (h' : ComesTo res al ctx y b z c) :
    ComesTo res al ctx x a z c := by
  induction h with
  | self => exact h'
  | part h1 h2 _ ih => exact .part h1 h2 (ih h')

theorem opens_inline {res : Table Id} {c : Bool} {t : Id} {bs : List UInt8} {c' : Bool} {ts : List Id} {r : List UInt8} (h : OpensInto res c t bs c' ts r) :
    r.length ≤ bs.length ∧ (r.length = bs.length → Inline res c t c' ts) := by
  cases h with
  | inline h => exact ⟨Nat.le_refl _, fun _ => h⟩
  | sequence h hp hn =>
    have := List.length_pos_iff.2 (isCompact_ne_nil hp)
    simp only [List.length_append]
    exact ⟨by omega, fun e => by omega⟩
  | variant h f => simp only [List.length_cons]; exact ⟨by omega, fun e => by omega⟩

theorem antitone_stable (f : Nat → Nat) (h : ∀ n, f (n + 1) ≤ f n) : ∃ N, ∀ k, f (N + k + 1) = f (N + k) := by
  have hle : ∀ n k, f (n + k) ≤ f n := by
    intro n k
    induction k with
    | zero => exact Nat.le_refl _
    | succ k ih => exact Nat.le_trans (h (n + k)) ih
  have : ∀ m n, f n = m → ∃ N, ∀ k, f (N + k + 1) = f (N + k) := by
    intro m
    induction m using Nat.strongRecOn with
    | ind m ih =>
      intro n hn
      by_cases hc : ∀ k, f (n + k + 1) = f (n + k)
      · exact ⟨n, hc⟩
      · simp only [Classical.not_forall] at hc
        obtain ⟨k, hk⟩ := hc
        have h1 := h (n + k)
        have h2 := hle n k
        exact ih (f (n + k + 1)) (by omega) _ rfl
  exact this _ 0 rfl

theorem stuck_endless {res : Table Id} {al : Nat → Bool} {ctx : Id → Γ} {c : Bool} {t : Id} {bs : List UInt8} (h : ∀ n, decT res al ctx n c t bs = none) :
    ∃ y bs', ComesTo res al ctx (c, t) bs y bs' ∧ Endless res y := by
  let St := { p : (Bool × Id) × List UInt8 // ∀ n, decT res al ctx n p.1.1 p.1.2 p.2 = none }
  have next : ∀ p : St, ∃ q : St, ∃ pre post r, OpensInto res p.1.1.1 p.1.1.2 p.1.2 q.1.1.1 (pre ++ q.1.1.2 :: post) r ∧ Passes res al ctx q.1.1.1 pre r q.1.2 := by
    rintro ⟨⟨⟨c, t⟩, bs⟩, h⟩
    obtain ⟨c', pre, u, post, r, r', ho, hp, hu⟩ := stuck_step h
    exact ⟨⟨⟨⟨c', u⟩, r'⟩, hu⟩, pre, post, r, ho, hp⟩
  let nx : St → St := fun p => (next p).choose
  have hnx : ∀ p : St, ∃ pre post r, OpensInto res p.1.1.1 p.1.1.2 p.1.2 (nx p).1.1.1 (pre ++ (nx p).1.1.2 :: post) r ∧ Passes res al ctx (nx p).1.1.1 pre r (nx p).1.2 :=
    fun p => (next p).choose_spec
  let g : Nat → St := fun n => n.rec ⟨⟨⟨c, t⟩, bs⟩, h⟩ (fun _ p => nx p)
  have hg : ∀ n, g (n + 1) = nx (g n) := fun _ => rfl
  have hlen : ∀ n, (g (n + 1)).1.2.length ≤ (g n).1.2.length := by
    intro n
    rw [hg]
    obtain ⟨pre, post, r, ho, hp⟩ := hnx (g n)
    exact Nat.le_trans (passes_consumes hp).1 (opens_inline ho).1
  obtain ⟨N, hN⟩ := antitone_stable (fun n => (g n).1.2.length) hlen
  have hcome : ∀ n, ComesTo res al ctx (c, t) bs (g n).1.1 (g n).1.2 := by
    intro n
    induction n with
    | zero => exact .self
    | succ n ih =>
      obtain ⟨pre, post, r, ho, hp⟩ := hnx (g n)
      exact comesTo_trans ih (.part ho hp .self)
  refine ⟨(g N).1.1, (g N).1.2, hcome N, fun k => (g (N + k)).1.1, rfl, ?_⟩
  intro k
  have hk := hN k
  obtain ⟨pre, post, r, ho, hp⟩ := hnx (g (N + k))
  have h1 := opens_inline ho
  have h2 := passes_consumes hp
  have hk : (nx (g (N + k))).1.2.length = (g (N + k)).1.2.length := hk
  exact ⟨pre, post, h1.2 (by omega), (h2.2 (by omega)).2⟩

theorem endless_stuck {res : Table Id} {al : Nat → Bool} (hal : ∀ n, al n = true) {ctx : Id → Γ} {x y : Bool × Id} {bs bs' : List UInt8} (h : ComesTo res al ctx x bs y bs') (he : Endless res y) :
    ∀ n, decT res al ctx n x.1 x.2 bs = none := by
  induction h with
  | self => exact fun n => decT_endless hal n _ _ he
  | part ho hp _ ih =>
    intro n
    cases n with
    | zero => rfl
    | succ n =>
      obtain ⟨w, hw, rfl, h2, rfl⟩ := opens_visit ho
      refine (decT_parts hal hw).1 ?_
      rw [h2]
      obtain ⟨m, vs, hm⟩ := passes_items hp
      exact decItems_stuck hm n (ih he n)

/-! ### What is come to is in the type -/

theorem inline_mentions {res : Table Id} {c : Bool} {t : Id} {c' : Bool} {ts : List Id} (h : Inline res c t c' ts) : ∀ u ∈ ts, WithinType res t u := by
  have hin : ∀ {t c' ts}, Inline res true t c' ts → ∀ u ∈ ts, ∃ d, res t = some d ∧ u ∈ d.mentions := by
    intro t c' ts h u hu
    cases h with
    | compactComposite h => exact ⟨_, h, by simpa [TypeDef.mentions] using hu⟩
    | compactTuple h => exact ⟨_, h, by simpa [TypeDef.mentions] using hu⟩
  intro u hu
  cases h with
  | composite h => exact .step .self h (by simpa [TypeDef.mentions] using hu)
  | tuple h => exact .step .self h (by simpa [TypeDef.mentions] using hu)
  | array h => exact .step .self h (by simp [TypeDef.mentions]; exact List.eq_of_mem_replicate hu)
  | compact h i =>
    obtain ⟨d, hd, hu⟩ := hin i u hu
    exact .step (.step .self h (by simp [TypeDef.mentions])) hd hu
  | compactComposite h => exact .step .self h (by simpa [TypeDef.mentions] using hu)
  | compactTuple h => exact .step .self h (by simpa [TypeDef.mentions] using hu)

theorem opens_mentions {res : Table Id} {c : Bool} {t : Id} {bs : List UInt8} {c' : Bool} {ts : List Id} {r : List UInt8} (h : OpensInto res c t bs c' ts r) : ∀ u ∈ ts, WithinType res t u := by
  cases h with
  | inline h => exact inline_mentions h
  | sequence h hp hn => intro u hu; exact .step .self h (by simp [TypeDef.mentions]; exact List.eq_of_mem_replicate hu)
  | variant h f => intro u hu; refine .step .self h ?_; simp only [TypeDef.mentions, List.mem_flatten, List.mem_map]; exact ⟨_, ⟨_, by simp, rfl⟩, hu⟩

theorem withinType_trans {res : Table Id} {t u v : Id} (h : WithinType res t u) (h' : WithinType res u v) : WithinType res t v := by
  induction h' with
  | self => exact h
  | step _ hd hw ih => exact .step ih hd hw

theorem comesTo_within {res : Table Id} {al : Nat → Bool} {ctx : Id → Γ} {x y : Bool × Id} {bs bs' : List UInt8} (h : ComesTo res al ctx x bs y bs') : WithinType res x.2 y.2 := by
  induction h with
  | self => exact .self
  | part ho _ _ ih => exact withinType_trans (opens_mentions ho _ (by simp)) ih

end SV
