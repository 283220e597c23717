import Verif.Proofs.Alloc
import Verif.Proofs.Endless
/-
Proofs for C85, of the tracing decoder.
-/
namespace SV

variable {Id Γ : Type}

theorem trT_reg (reg : Reg Id) (al : Nat → Bool) : ∀ n, trT reg.resolve al n = trN reg al n := by
  intro n
  induction n with
  | zero => rfl
  | succ n ih =>
    funext c path t bs
    rw [trT, trN, ih, visitT_reg]
    rfl

theorem trT_succ (res : Table Id) (al : Nat → Bool) : ∀ n c, TExt (trT res al n c) (trT res al (n + 1) c) := by
  intro n
  induction n with
  | zero => intro c p t bs r h; cases h
  | succ n ih =>
    intro c p t bs r h
    rw [trT] at h ⊢
    split at h
    · exact h
    · exact h
    · exact trMkVal_ext (fun r => trUnnamed_ext al (ih _)) h
    · exact trMkVal_ext (fun r => trGroupOf_ext al (ih _)) h
    · exact trMkVariant_ext (fun r => trGroupOf_ext al (ih _)) h

theorem trT_mono (res : Table Id) (al : Nat → Bool) {n m : Nat} (h : n ≤ m) (c : Bool) : TExt (trT res al n c) (trT res al m c) := by
  induction h with
  | refl => intro _ _ _ _ h; exact h
  | step _ ih => intro p a b r h; exact trT_succ res al _ _ _ _ _ _ (ih p a b r h)

theorem trT_sim (res : Table Id) (al : Nat → Bool) (ctx : Id → Γ) : ∀ n c path t bs, Sim (trT res al n c path t bs) (decT res al ctx n c t bs)
  | 0, _, _, _, _ => .none
  | n + 1, c, path, t, bs => by
    rw [trT, decT]
    rcases visitT res c t bs with e | ⟨ty, c', step⟩
    · exact .fails
    · cases step with
      | leaf l r => exact .okay
      | items ids r => exact trMkVal_sim (trUnnamed_sim al (trT_sim res al ctx n _) _ _ _)
      | composite fs r => exact trMkVal_sim (trGroupOf_sim al (trT_sim res al ctx n _) _ _ _)
      | variant name fs r => exact trMkVariant_sim (trGroupOf_sim al (trT_sim res al ctx n _) _ _ _)

theorem trItems_stuck {f : TDec Id} {g : Id → List UInt8 → Option (Out DErr (Value Γ × List UInt8))} (h : ∀ p t bs, Sim (f p t bs) (g t bs)) (hn : ∀ p t bs, f p t bs = none → g t bs = none) (path : Path) :
    ∀ ts idx vals bs, trItems f path ts idx vals bs = none → decItems g ts bs = none
  | [], _, _, _ => nofun
  | t :: ts, idx, vals, bs => by
    intro hs
    rw [trItems] at hs
    rw [decItems]
    cases hf : f (path ++ [.index idx]) t bs with
    | none => rw [hn _ _ _ hf]
    | some o =>
      rw [hf] at hs
      cases o with
      | panic => cases hs
      | err e => cases hs
      | ok x =>
        obtain ⟨v, r⟩ := x
        obtain ⟨w, hw⟩ := (h (path ++ [.index idx]) t bs).ok v r hf
        rw [hw]
        dsimp only at hs ⊢
        rw [trItems_stuck h hn path ts _ _ _ hs]

theorem trNamedFields_stuck {f : TDec Id} {g : Id → List UInt8 → Option (Out DErr (Value Γ × List UInt8))} (h : ∀ p t bs, Sim (f p t bs) (g t bs)) (hn : ∀ p t bs, f p t bs = none → g t bs = none) (path : Path) :
    ∀ ts vals bs, trNamedFields f path ts vals bs = none → decFields g ts bs = none
  | [], _, _ => nofun
  | t :: ts, vals, bs => by
    intro hs
    rw [trNamedFields] at hs
    rw [decFields]
    cases hf : f (path ++ [.field (t.name.getD "<unnamed>".toList)]) t.id bs with
    | none => rw [hn _ _ _ hf]
    | some o =>
      rw [hf] at hs
      cases o with
      | panic => cases hs
      | err e => cases hs
      | ok x =>
        obtain ⟨v, r⟩ := x
        obtain ⟨w, hw⟩ := (h (path ++ [.field (t.name.getD "<unnamed>".toList)]) t.id bs).ok v r hf
        rw [hw]
        dsimp only at hs ⊢
        rw [trNamedFields_stuck h hn path ts _ _ hs]

theorem trUnnamed_stuck {al : Nat → Bool} {f : TDec Id} {g : Id → List UInt8 → Option (Out DErr (Value Γ × List UInt8))} (h : ∀ p t bs, Sim (f p t bs) (g t bs)) (hn : ∀ p t bs, f p t bs = none → g t bs = none) {path : Path}
    {ts : List Id} {bs : List UInt8} (hs : trUnnamed al f path ts bs = none) : decUnnamed al g ts bs = none := by
  unfold trUnnamed at hs
  unfold decUnnamed
  split at hs
  · cases hs
  · split at hs
    · cases hs
    · next ha => rw [if_neg ha, trItems_stuck h hn path _ _ _ _ hs]

theorem trGroupOf_stuck {al : Nat → Bool} {f : TDec Id} {g : Id → List UInt8 → Option (Out DErr (Value Γ × List UInt8))} (h : ∀ p t bs, Sim (f p t bs) (g t bs)) (hn : ∀ p t bs, f p t bs = none → g t bs = none) {path : Path}
    {fs : List (Field Id)} {bs : List UInt8} (hs : trGroupOf al f path fs bs = none) : decComposite al g fs bs = none := by
  unfold trGroupOf at hs
  unfold decComposite
  by_cases hi : isNamed fs = true
  · rw [if_neg (by simp [hi])] at hs
    split at hs
    · cases hs
    · next ha => rw [if_neg ha, if_pos hi, trNamedFields_stuck h hn path _ _ _ hs]
  · rw [if_pos (by simpa using hi)] at hs
    have := trUnnamed_stuck h hn hs
    unfold decUnnamed at this
    rw [List.length_map] at this
    rw [if_neg hi]
    exact this

theorem trT_stuck (res : Table Id) (al : Nat → Bool) (ctx : Id → Γ) : ∀ n c path t bs, trT res al n c path t bs = none → decT res al ctx n c t bs = none
  | 0, _, _, _, _ => fun _ => rfl
  | n + 1, c, path, t, bs => by
    intro hs
    rw [trT] at hs
    rw [decT]
    rcases hv : visitT res c t bs with e | ⟨ty, c', step⟩
    · rw [hv] at hs; cases hs
    · rw [hv] at hs
      cases step with
      | leaf l r => cases hs
      | items ids r =>
        dsimp only at hs ⊢
        rw [trUnnamed_stuck (al := al) (path := path) (ts := ids) (bs := r) (trT_sim res al ctx n c') (trT_stuck res al ctx n c') (by
          cases hx : trUnnamed al (trT res al n c') path ids r with
          | none => rfl
          | some o => rw [hx] at hs; cases o <;> cases hs)]
        rfl
      | composite fs r =>
        dsimp only at hs ⊢
        rw [trGroupOf_stuck (al := al) (path := path) (fs := fs) (bs := r) (trT_sim res al ctx n c') (trT_stuck res al ctx n c') (by
          cases hx : trGroupOf al (trT res al n c') path fs r with
          | none => rfl
          | some o => rw [hx] at hs; cases o <;> cases hs)]
        rfl
      | variant name fs r =>
        dsimp only at hs ⊢
        rw [trGroupOf_stuck (al := al) (path := path) (fs := fs) (bs := r) (trT_sim res al ctx n c') (trT_stuck res al ctx n c') (by
          cases hx : trGroupOf al (trT res al n c') path fs r with
          | none => rfl
          | some o => rw [hx] at hs; cases o <;> cases hs)]
        rfl

theorem traceDecodeT_some {res : Table Id} {al : Nat → Bool} {t : Id} {bs : List UInt8} {r} : traceDecodeT res al t bs = some r ↔ ∃ n, trT res al n false [] t bs = some r :=
  limit_some (fun _ _ r hnm h => trT_mono res al hnm false [] t bs r h)

end SV
