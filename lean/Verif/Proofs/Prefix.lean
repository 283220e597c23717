import Verif.Proofs.Alloc
/-
Bytes that come in parts: what more bytes can change about the outcome of decoding.
-/
namespace SV

variable {Id Γ : Type}

/-- `a` with the bytes at hand and `b` with `s` after them: the same outcome, except that a soft error says nothing. -/
inductive CutAt {E A : Type} (soft : E → Prop) (f : E → E) (s : List UInt8) : Option (Out E (A × List UInt8)) → Option (Out E (A × List UInt8)) → Prop
  | none (b) : CutAt soft f s none b
  | ok (v r) : CutAt soft f s (some (.ok (v, r))) (some (.ok (v, r ++ s)))
  | err (e) : CutAt soft f s (some (.err e)) (some (.err (f e)))
  | soft (e b) : soft e → CutAt soft f s (some (.err e)) b
  | panic : CutAt soft f s (some .panic) (some .panic)

/-- Of the next step: the same with more bytes left, unless there was a `codec` error. -/
def DStep.more (s : List UInt8) : DStep Id → DStep Id
  | .leaf l r => .leaf l (r ++ s)
  | .items ids r => .items ids (r ++ s)
  | .composite fs r => .composite fs (r ++ s)
  | .variant n fs r => .variant n fs (r ++ s)

theorem takeN_more {k : Nat} {bs p r : List UInt8} (s : List UInt8) (h : takeN k bs = some (p, r)) : takeN k (bs ++ s) = some (p, r ++ s) := by
  obtain ⟨rfl, hk⟩ := takeN_eq.1 h
  rw [List.append_assoc]
  exact takeN_eq.2 ⟨rfl, hk⟩

theorem compactDec_more {bits : Nat} {bs r : List UInt8} {n : Nat} (s : List UInt8) (h : compactDec bits bs = some (n, r)) : compactDec bits (bs ++ s) = some (n, r ++ s) := by
  cases bs with
  | nil => cases h
  | cons b bs =>
    rw [List.cons_append]
    unfold compactDec at h ⊢
    dsimp only at h ⊢
    by_cases h0 : b.toNat % 4 = 0
    · rw [if_pos h0] at h ⊢
      cases h; rfl
    · rw [if_neg h0] at h ⊢
      have key : ∀ k (Q : List UInt8 → Prop) [DecidablePred Q] (g : List UInt8 → Nat), (match takeN k bs with
          | none => none
          | some (p, r) => if Q p then some (g p, r) else none) = some (n, r) →
          (match takeN k (bs ++ s) with
          | none => none
          | some (p, r) => if Q p then some (g p, r) else none) = some (n, r ++ s) := by
        intro k Q _ g h
        cases ht : takeN k bs with
        | none => rw [ht] at h; cases h
        | some x =>
          obtain ⟨p, q⟩ := x
          rw [ht] at h
          rw [takeN_more s ht]
          dsimp only at h ⊢
          split at h
          · rename_i hq; rw [if_pos hq]; cases h; rfl
          · cases h
      by_cases h1 : b.toNat % 4 = 1
      · rw [if_pos h1] at h ⊢
        exact key 1 (fun p => 2 ^ 6 ≤ leVal (b :: p) / 4 ∧ leVal (b :: p) / 4 < 2 ^ bits) (fun p => leVal (b :: p) / 4) h
      · rw [if_neg h1] at h ⊢
        by_cases h2 : b.toNat % 4 = 2
        · rw [if_pos h2] at h ⊢
          exact key 3 (fun p => 2 ^ 14 ≤ leVal (b :: p) / 4 ∧ leVal (b :: p) / 4 < 2 ^ bits) (fun p => leVal (b :: p) / 4) h
        · rw [if_neg h2] at h ⊢
          exact key (b.toNat / 4 + 4) (fun p => 2 ^ 30 ≤ leVal p ∧ (b.toNat / 4 + 4 = 4 ∨ 256 ^ (b.toNat / 4 + 4 - 1) ≤ leVal p) ∧ leVal p < 2 ^ bits) (fun p => leVal p) h

theorem decWords_more {o : BitOrder} {k : Nat} (s : List UInt8) : ∀ (n : Nat) (bs r : List UInt8) (l : List Bool), decWords o k n bs = some (l, r) → decWords o k n (bs ++ s) = some (l, r ++ s)
  | 0, bs, r, l, h => by rw [decWords] at h ⊢; cases h; rfl
  | n + 1, bs, r, l, h => by
    rw [decWords] at h ⊢
    cases ht : takeN k bs with
    | none => rw [ht] at h; cases h
    | some x =>
      obtain ⟨p, q⟩ := x
      rw [ht] at h
      rw [takeN_more s ht]
      dsimp only at h ⊢
      cases hd : decWords o k n q with
      | none => rw [hd] at h; cases h
      | some y =>
        obtain ⟨l', q'⟩ := y
        rw [hd] at h
        rw [decWords_more s n _ _ _ hd]
        cases h; rfl

theorem bitsDec_more {st : BitStore} {o : BitOrder} {bs r : List UInt8} {l : List Bool} (s : List UInt8) (h : bitsDec st o bs = some (l, r)) : bitsDec st o (bs ++ s) = some (l, r ++ s) := by
  unfold bitsDec at h ⊢
  cases hc : compactDec 32 bs with
  | none => rw [hc] at h; cases h
  | some x =>
    obtain ⟨n, q⟩ := x
    rw [hc] at h
    rw [compactDec_more s hc]
    dsimp only at h ⊢
    cases hd : decWords o st.bytes (wordCount (8 * st.bytes) n) q with
    | none => rw [hd] at h; cases h
    | some y =>
      obtain ⟨l', q'⟩ := y
      rw [hd] at h
      rw [decWords_more s _ _ _ _ hd]
      cases h; rfl

/-- Of the functions that read a leaf. -/
def More {A : Type} (s : List UInt8) (a b : Except DErr (A × List UInt8)) : Prop :=
  (∀ l r, a = .ok (l, r) → b = .ok (l, r ++ s)) ∧ ∀ e, a = .error e → e ≠ .codec → b = .error e

theorem More.codec {A : Type} {s : List UInt8} {b : Except DErr (A × List UInt8)} : More s (.error .codec) b := ⟨nofun, fun _ h h' => by cases h; exact (h' rfl).elim⟩
theorem More.okay {A : Type} {s r : List UInt8} {l : A} : More s (.ok (l, r)) (.ok (l, r ++ s)) := ⟨fun _ _ h => by cases h; rfl, nofun⟩
theorem More.fails {A : Type} {s : List UInt8} {e : DErr} : More (A := A) s (.error e) (.error e) := ⟨nofun, fun _ h _ => by cases h; rfl⟩

theorem readUint_more (k : Nat) (bs s : List UInt8) : More s (readUint k bs) (readUint k (bs ++ s)) := by
  unfold readUint
  cases ht : takeN k bs with
  | none => exact .codec
  | some x =>
    rw [takeN_more s ht]
    dsimp only
    cases U128.ofNat? (leVal x.1) with
    | none => exact .codec
    | some n => exact .okay

theorem readInt_more (k : Nat) (bs s : List UInt8) : More s (readInt k bs) (readInt k (bs ++ s)) := by
  unfold readInt
  cases ht : takeN k bs with
  | none => exact .codec
  | some x =>
    rw [takeN_more s ht]
    dsimp only
    cases I128.ofInt? (leValInt x.1) with
    | none => exact .codec
    | some n => exact .okay

theorem read32_more (mk : Bytes32 → Leaf) (bs s : List UInt8) : More s (read32 mk bs) (read32 mk (bs ++ s)) := by
  unfold read32
  split
  · rename_i h
    rw [dif_pos (by simp; omega)]
    simp only [List.take_append_of_le_length h, List.drop_append_of_le_length h]
    exact .okay
  · exact .codec

theorem readPrim_more (p : Prim) (bs s : List UInt8) : More s (readPrim p bs) (readPrim p (bs ++ s)) := by
  cases p with
  | bool =>
    cases bs with
    | nil => exact .codec
    | cons b r =>
      rw [List.cons_append]
      unfold readPrim
      dsimp only
      split
      · exact .okay
      · split
        · exact .okay
        · exact .codec
  | char =>
    unfold readPrim
    dsimp only
    cases ht : takeN 4 bs with
    | none => exact .codec
    | some x =>
      rw [takeN_more s ht]
      dsimp only
      split
      · exact .okay
      · exact .fails
  | str =>
    unfold readPrim
    dsimp only
    cases hc : compactDec 64 bs with
    | none => exact .codec
    | some x =>
      obtain ⟨n, q⟩ := x
      rw [compactDec_more s hc]
      dsimp only
      cases ht : takeN n q with
      | none => exact .codec
      | some x =>
        rw [takeN_more s ht]
        dsimp only
        split
        · exact .fails
        · exact .okay
  | _ => first | exact readUint_more _ _ _ | exact readInt_more _ _ _ | exact read32_more _ _ _

theorem readCompact_more (k : Nat) (bs s : List UInt8) : More s (readCompact k bs) (readCompact k (bs ++ s)) := by
  unfold readCompact
  cases hc : compactDec k bs with
  | none => exact .codec
  | some x =>
    rw [compactDec_more s hc]
    dsimp only
    cases U128.ofNat? x.1 with
    | none => exact .codec
    | some n => exact .okay

theorem readCompactPrim_more (p : Prim) (bs s : List UInt8) : More s (readCompactPrim p bs) (readCompactPrim p (bs ++ s)) := by
  cases p <;> first | exact readCompact_more _ _ _ | exact .fails

/-- Of steps. -/
def MoreStep (s : List UInt8) (a b : Except DErr (DStep Id)) : Prop :=
  (∀ d, a = .ok d → b = .ok (d.more s)) ∧ ∀ e, a = .error e → e ≠ .codec → b = .error e

theorem MoreStep.codec {s : List UInt8} {b : Except DErr (DStep Id)} : MoreStep s (.error .codec) b := ⟨fun _ h => (by cases h), fun _ h h' => by cases h; exact (h' rfl).elim⟩
theorem MoreStep.okay {s : List UInt8} {d : DStep Id} : MoreStep s (.ok d) (.ok (d.more s)) := ⟨fun _ h => by cases h; rfl, nofun⟩
theorem MoreStep.fails {s : List UInt8} {e : DErr} : MoreStep (Id := Id) s (.error e) (.error e) := ⟨fun _ h => (by cases h), fun _ h _ => by cases h; rfl⟩

theorem leafStep_more {s : List UInt8} {a b : Except DErr (Leaf × List UInt8)} (h : More s a b) : MoreStep (Id := Id) s (leafStep a) (leafStep b) := by
  rcases a with e | ⟨l, r⟩
  · by_cases he : e = .codec
    · subst he; exact .codec
    · rw [h.2 e rfl he]; exact .fails
  · rw [h.1 l r rfl]; exact .okay

theorem visitCompact_more (reg : Reg Id) (t : Id) (bs s : List UInt8) : MoreStep s (visitCompact reg t bs) (visitCompact reg t (bs ++ s)) := by
  unfold visitCompact
  cases reg.resolve t with
  | none => exact .fails
  | some d =>
    cases d with
    | primitive p => exact leafStep_more (readCompactPrim_more p bs s)
    | composite fs => dsimp only; split; exact .okay; exact .fails
    | tuple ts => dsimp only; split; exact .okay; exact .fails
    | _ => exact .fails

theorem visitPlain_more (reg : Reg Id) (t : Id) (bs s : List UInt8) : MoreStep s (visitPlain reg t bs) (visitPlain reg t (bs ++ s)) := by
  unfold visitPlain
  cases reg.resolve t with
  | none => exact .fails
  | some d =>
    cases d with
    | primitive p => exact leafStep_more (readPrim_more p bs s)
    | composite fs => exact .okay
    | tuple ts => exact .okay
    | array t n => exact .okay
    | sequence t =>
      dsimp only
      cases hc : compactDec 64 bs with
      | none => exact .codec
      | some x => rw [compactDec_more s hc]; exact .okay
    | variant vs =>
      cases bs with
      | nil => exact .codec
      | cons i r =>
        rw [List.cons_append]
        dsimp only
        split
        · exact .fails
        · exact .okay
    | bitSequence st o =>
      dsimp only
      cases hc : bitsDec st o bs with
      | none => exact .codec
      | some x => rw [bitsDec_more s hc]; exact .okay
    | compact _ => exact .fails

/-- What a visit is, with more bytes. -/
theorem visit_more (reg : Reg Id) (c : Bool) (t : Id) (bs s : List UInt8) :
    (∀ x, visit reg c t bs = .ok x → visit reg c t (bs ++ s) = .ok ⟨x.ty, x.compact, x.step.more s⟩) ∧
    ∀ e, visit reg c t bs = .error e → e ≠ .codec → visit reg c t (bs ++ s) = .error e := by
  have key : ∀ (a b : Except DErr (DStep Id)) (ty : Id) (c : Bool), MoreStep s a b →
      (∀ x, (match a with | .error e => .error e | .ok s => .ok ⟨ty, c, s⟩ : Except DErr (Visit Id)) = .ok x →
        (match b with | .error e => .error e | .ok s => .ok ⟨ty, c, s⟩ : Except DErr (Visit Id)) = .ok ⟨x.ty, x.compact, x.step.more s⟩) ∧
      ∀ e, (match a with | .error e => .error e | .ok s => .ok ⟨ty, c, s⟩ : Except DErr (Visit Id)) = .error e → e ≠ .codec →
        (match b with | .error e => .error e | .ok s => .ok ⟨ty, c, s⟩ : Except DErr (Visit Id)) = .error e := by
    intro a b ty c h
    cases a with
    | error e =>
      refine ⟨fun x h => (by cases h), fun e' h1 h2 => ?_⟩
      cases h1
      rw [h.2 e rfl h2]
    | ok d =>
      refine ⟨fun x hx => ?_, fun e h => (by cases h)⟩
      cases hx
      rw [h.1 d rfl]
  unfold visit
  cases c with
  | true => exact key _ _ t true (visitCompact_more reg t bs s)
  | false =>
    rw [if_neg (by simp), if_neg (by simp)]
    split
    · exact key _ _ _ true (visitCompact_more reg _ bs s)
    · exact key _ _ _ false (visitPlain_more reg t bs s)

/-! ### The plain decoder -/

/-- A `codec` error. -/
def SoftP (x : DErr × List UInt8) : Prop := x.1 = .codec
def moreP (s : List UInt8) (x : DErr × List UInt8) : DErr × List UInt8 := (x.1, x.2 ++ s)
def SoftD (x : DErr) : Prop := x = .codec

theorem decItems_part {f : Id → List UInt8 → Option (Out DErr (Value Γ × List UInt8))} (s : List UInt8) (h : ∀ t bs, CutAt SoftD id s (f t bs) (f t (bs ++ s))) :
    ∀ ts bs, CutAt SoftP (moreP s) s (decItems f ts bs) (decItems f ts (bs ++ s))
  | [], bs => by rw [decItems, decItems]; exact .ok _ _
  | t :: ts, bs => by
    rw [decItems, decItems]
    have := h t bs
    revert this
    generalize f t bs = a, f t (bs ++ s) = b
    intro hab
    cases hab with
    | none => exact .none _
    | ok v r =>
      dsimp only
      have := decItems_part s h ts r
      revert this
      generalize decItems f ts r = a, decItems f ts (r ++ s) = b
      intro hab
      cases hab with
      | none => exact .none _
      | ok v r => exact .ok _ _
      | err e => exact .err _
      | soft e b h => exact .soft _ _ h
      | panic => exact .panic
    | err e => exact .err (e, bs)
    | soft e b h => exact .soft _ _ h
    | panic => exact .panic

theorem decFields_part {f : Id → List UInt8 → Option (Out DErr (Value Γ × List UInt8))} (s : List UInt8) (h : ∀ t bs, CutAt SoftD id s (f t bs) (f t (bs ++ s))) :
    ∀ ts bs, CutAt SoftP (moreP s) s (decFields f ts bs) (decFields f ts (bs ++ s))
  | [], bs => by rw [decFields, decFields]; exact .ok _ _
  | t :: ts, bs => by
    rw [decFields, decFields]
    have := h t.id bs
    revert this
    generalize f t.id bs = a, f t.id (bs ++ s) = b
    intro hab
    cases hab with
    | none => exact .none _
    | ok v r =>
      dsimp only
      have := decFields_part s h ts r
      revert this
      generalize decFields f ts r = a, decFields f ts (r ++ s) = b
      intro hab
      cases hab with
      | none => exact .none _
      | ok v r => exact .ok _ _
      | err e => exact .err _
      | soft e b h => exact .soft _ _ h
      | panic => exact .panic
    | err e => exact .err (e, bs)
    | soft e b h => exact .soft _ _ h
    | panic => exact .panic

theorem decUnnamed_part (al : Nat → Bool) {f : Id → List UInt8 → Option (Out DErr (Value Γ × List UInt8))} (s : List UInt8) (h : ∀ t bs, CutAt SoftD id s (f t bs) (f t (bs ++ s)))
    (ts : List Id) (bs : List UInt8) : CutAt SoftP (moreP s) s (decUnnamed al f ts bs) (decUnnamed al f ts (bs ++ s)) := by
  unfold decUnnamed
  split
  · exact .panic
  · have := decItems_part s h ts bs
    revert this
    generalize decItems f ts bs = a, decItems f ts (bs ++ s) = b
    intro hab
    cases hab with
    | none => exact .none _
    | ok v r => exact .ok _ _
    | err e => exact .err _
    | soft e b h => exact .soft _ _ h
    | panic => exact .panic

theorem decComposite_part (al : Nat → Bool) {f : Id → List UInt8 → Option (Out DErr (Value Γ × List UInt8))} (s : List UInt8) (h : ∀ t bs, CutAt SoftD id s (f t bs) (f t (bs ++ s)))
    (fs : List (Field Id)) (bs : List UInt8) : CutAt SoftP (moreP s) s (decComposite al f fs bs) (decComposite al f fs (bs ++ s)) := by
  unfold decComposite
  split
  · exact .panic
  · split
    · have := decFields_part s h fs bs
      revert this
      generalize decFields f fs bs = a, decFields f fs (bs ++ s) = b
      intro hab
      cases hab with
      | none => exact .none _
      | ok v r => exact .ok _ _
      | err e => exact .err _
      | soft e b h => exact .soft _ _ h
      | panic => exact .panic
    · have := decItems_part s h (fs.map (fun f => f.id)) bs
      revert this
      generalize decItems f (fs.map (fun f => f.id)) bs = a, decItems f (fs.map (fun f => f.id)) (bs ++ s) = b
      intro hab
      cases hab with
      | none => exact .none _
      | ok v r => exact .ok _ _
      | err e => exact .err _
      | soft e b h => exact .soft _ _ h
      | panic => exact .panic

theorem mkVal_part {mk : Composite Γ → Value Γ} {s : List UInt8} {a b : Option (Out (DErr × List UInt8) (Composite Γ × List UInt8))} (h : CutAt SoftP (moreP s) s a b) :
    CutAt SoftD id s (mkVal mk a) (mkVal mk b) := by
  cases h with
  | none => exact .none _
  | ok v r => exact .ok _ _
  | err e => exact .err _
  | soft e b h => exact .soft _ _ h
  | panic => exact .panic

theorem decN_part (reg : Reg Id) (al : Nat → Bool) (ctx : Id → Γ) (s : List UInt8) : ∀ n c t bs, CutAt SoftD id s (decN reg al ctx n c t bs) (decN reg al ctx n c t (bs ++ s))
  | 0, _, _, _ => .none _
  | n + 1, c, t, bs => by
    rw [decN, decN]
    have hv := visit_more reg c t bs s
    rcases hx : visit reg c t bs with e | ⟨ty, c', step⟩
    · by_cases he : e = .codec
      · exact .soft _ _ he
      · rw [hv.2 e hx he]; exact .err _
    · rw [hv.1 _ hx]
      cases step with
      | leaf l r => exact .ok _ _
      | items ids r => exact mkVal_part (decUnnamed_part al s (decN_part reg al ctx s n _) _ _)
      | composite fs r => exact mkVal_part (decComposite_part al s (decN_part reg al ctx s n _) _ _)
      | variant name fs r => exact mkVal_part (decComposite_part al s (decN_part reg al ctx s n _) _ _)

theorem decodeWith_part (ctx : Id → Γ) (reg : Reg Id) (al : Nat → Bool) (t : Id) (bs s : List UInt8) :
    CutAt SoftD id s (some (decodeWith ctx reg al t bs)) (some (decodeWith ctx reg al t (bs ++ s))) := by
  obtain ⟨n, hn⟩ := (decodeWith_eq (ctx := ctx) (reg := reg) (al := al) (t := t) (bs := bs)).1 rfl
  obtain ⟨m, hm⟩ := (decodeWith_eq (ctx := ctx) (reg := reg) (al := al) (t := t) (bs := bs ++ s)).1 rfl
  have h1 := decN_mono reg al ctx (Nat.le_max_left n m) false _ _ _ hn
  have h2 := decN_mono reg al ctx (Nat.le_max_right n m) false _ _ _ hm
  rw [← h1, ← h2]
  exact decN_part reg al ctx s _ false t bs

/-! ### The tracing decoder -/

def SoftT {V : Type} (x : TErr V) : Prop := x.why = .codec

theorem trItems_part {f : TDec Id} (s : List UInt8) (h : ∀ p t bs, CutAt SoftT id s (f p t bs) (f p t (bs ++ s))) (path : Path) :
    ∀ ts idx vals bs, CutAt SoftT id s (trItems f path ts idx vals bs) (trItems f path ts idx vals (bs ++ s))
  | [], _, _, bs => by rw [trItems, trItems]; exact .ok _ _
  | t :: ts, idx, vals, bs => by
    rw [trItems, trItems]
    have := h (path ++ [.index idx]) t bs
    revert this
    generalize f (path ++ [.index idx]) t bs = a, f (path ++ [.index idx]) t (bs ++ s) = b
    intro hab
    cases hab with
    | none => exact .none _
    | ok v r => exact trItems_part s h path ts _ _ r
    | err e => exact .err _
    | soft e b h => exact .soft _ _ (by rw [SoftT, why_withOuter]; exact h)
    | panic => exact .panic

theorem trNamedFields_part {f : TDec Id} (s : List UInt8) (h : ∀ p t bs, CutAt SoftT id s (f p t bs) (f p t (bs ++ s))) (path : Path) :
    ∀ ts vals bs, CutAt SoftT id s (trNamedFields f path ts vals bs) (trNamedFields f path ts vals (bs ++ s))
  | [], _, bs => by rw [trNamedFields, trNamedFields]; exact .ok _ _
  | t :: ts, vals, bs => by
    rw [trNamedFields, trNamedFields]
    have := h (path ++ [.field (t.name.getD "<unnamed>".toList)]) t.id bs
    revert this
    generalize f (path ++ [.field (t.name.getD "<unnamed>".toList)]) t.id bs = a, f (path ++ [.field (t.name.getD "<unnamed>".toList)]) t.id (bs ++ s) = b
    intro hab
    cases hab with
    | none => exact .none _
    | ok v r => exact trNamedFields_part s h path ts _ r
    | err e => exact .err _
    | soft e b h => exact .soft _ _ (by rw [SoftT, why_withOuter]; exact h)
    | panic => exact .panic

theorem trUnnamed_part (al : Nat → Bool) {f : TDec Id} (s : List UInt8) (h : ∀ p t bs, CutAt SoftT id s (f p t bs) (f p t (bs ++ s))) (path : Path) (ts : List Id) (bs : List UInt8) :
    CutAt SoftT id s (trUnnamed al f path ts bs) (trUnnamed al f path ts (bs ++ s)) := by
  unfold trUnnamed
  split
  · exact .err _
  · split
    · exact .panic
    · exact trItems_part s h path ts 0 [] bs

theorem trGroupOf_part (al : Nat → Bool) {f : TDec Id} (s : List UInt8) (h : ∀ p t bs, CutAt SoftT id s (f p t bs) (f p t (bs ++ s))) (path : Path) (fs : List (Field Id)) (bs : List UInt8) :
    CutAt SoftT id s (trGroupOf al f path fs bs) (trGroupOf al f path fs (bs ++ s)) := by
  unfold trGroupOf
  split
  · exact trUnnamed_part al s h path _ bs
  · split
    · exact .panic
    · exact trNamedFields_part s h path fs [] bs

theorem trMkVal_part {ty : Id} {s : List UInt8} {a b : Option (Out (TErr (Composite Id)) (Composite Id × List UInt8))} (h : CutAt SoftT id s a b) : CutAt SoftT id s (trMkVal ty a) (trMkVal ty b) := by
  cases h with
  | none => exact .none _
  | ok v r => exact .ok _ _
  | err e => exact .err _
  | soft e b h => exact .soft _ _ (by rw [SoftT, why_mapSoFar]; exact h)
  | panic => exact .panic

theorem trMkVariant_part {path : Path} {ty : Id} {name : Str} {s : List UInt8} {a b : Option (Out (TErr (Composite Id)) (Composite Id × List UInt8))} (h : CutAt SoftT id s a b) :
    CutAt SoftT id s (trMkVariant path ty name a) (trMkVariant path ty name b) := by
  cases h with
  | none => exact .none _
  | ok v r => exact .ok _ _
  | err e => exact .err _
  | soft e b h => exact .soft _ _ (by rw [SoftT, why_withOuter]; exact h)
  | panic => exact .panic

theorem trN_part (reg : Reg Id) (al : Nat → Bool) (s : List UInt8) : ∀ n c path t bs, CutAt SoftT id s (trN reg al n c path t bs) (trN reg al n c path t (bs ++ s))
  | 0, _, _, _, _ => .none _
  | n + 1, c, path, t, bs => by
    rw [trN, trN]
    have hv := visit_more reg c t bs s
    rcases hx : visit reg c t bs with e | ⟨ty, c', step⟩
    · by_cases he : e = .codec
      · exact .soft _ _ he
      · rw [hv.2 e hx he]; exact .err _
    · rw [hv.1 _ hx]
      cases step with
      | leaf l r => exact .ok _ _
      | items ids r => exact trMkVal_part (trUnnamed_part al s (trN_part reg al s n _) _ _ _)
      | composite fs r => exact trMkVal_part (trGroupOf_part al s (trN_part reg al s n _) _ _ _)
      | variant name fs r => exact trMkVariant_part (trGroupOf_part al s (trN_part reg al s n _) _ _ _)

theorem traceDecode_part (reg : Reg Id) (al : Nat → Bool) (t : Id) (bs s : List UInt8) :
    CutAt SoftT id s (some (traceDecode reg al t bs)) (some (traceDecode reg al t (bs ++ s))) := by
  obtain ⟨n, hn⟩ := (traceDecode_eq (reg := reg) (al := al) (t := t) (bs := bs)).1 rfl
  obtain ⟨m, hm⟩ := (traceDecode_eq (reg := reg) (al := al) (t := t) (bs := bs ++ s)).1 rfl
  have h1 := trN_mono reg al (Nat.le_max_left n m) false _ _ _ _ hn
  have h2 := trN_mono reg al (Nat.le_max_right n m) false _ _ _ _ hm
  rw [← h1, ← h2]
  exact trN_part reg al s _ false [] t bs

end SV
