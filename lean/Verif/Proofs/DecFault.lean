import Verif.Proofs.DecodeCtx
import Verif.Proofs.NodeFault
/-
The errors and panics of the plain decoder are those of `Spec/DecFault`.
-/
namespace SV

variable {Id Γ : Type}

/-- What becomes of the parts. -/
def fromItems (mk : List (Value Γ) → Value Γ) : Option (Out (DErr × List UInt8) (List (Value Γ) × List UInt8)) → Option (Out DErr (Value Γ × List UInt8))
  | none => none
  | some .panic => some .panic
  | some (.err e) => some (.err e.1)
  | some (.ok (vs, r)) => some (.ok (mk vs, r))

theorem decN_split {reg : Reg Id} {al : Nat → Bool} {ctx : Id → Γ} {c c' : Bool} {t ty : Id} {bs r : List UInt8} {s : DStep Id} {name : Option Str} {fs : List (Field Id)}
    (hv : visit reg c t bs = .ok ⟨ty, c', s⟩) (hs : s.split = some (name, fs, r)) :
    ∃ mk, ∀ n, decN reg al ctx (n + 1) c t bs = if al fs.length = true then fromItems mk (decItems (decN reg al ctx n c') (fs.map (fun f => f.id)) r) else some .panic := by
  cases s with
  | leaf l q => cases hs
  | items ts q =>
    cases hs
    refine ⟨fun vs => .mk (.composite (.unnamed vs)) (ctx ty), fun n => ?_⟩
    rw [decN, hv]
    simp only [decUnnamed, List.length_map, List.map_map, Function.comp_def, List.map_id']
    cases al ts.length
    · rfl
    · simp only [Bool.not_true, Bool.false_eq_true, if_false, if_true]
      rcases decItems (decN reg al ctx n c') ts r with _ | ⟨_, _⟩ | ⟨_, _⟩ | _ <;> rfl
  | composite gs q =>
    cases hs
    refine ⟨fun vs => .mk (.composite (if isNamed fs then .named ((fs.map (fun f => f.name.getD [])).zip vs) else .unnamed vs)) (ctx ty), fun n => ?_⟩
    rw [decN, hv]
    simp only [decComposite_eq]
    cases al fs.length
    · rfl
    · simp only [Bool.not_true, Bool.false_eq_true, if_false, if_true]
      generalize decItems (decN reg al ctx n c') (List.map (fun f => f.id) fs) r = y
      rcases y with _ | ⟨_, _⟩ | ⟨_, _⟩ | _ <;> rfl
  | variant nm gs q =>
    cases hs
    refine ⟨fun vs => .mk (.variant (.mk nm (if isNamed fs then .named ((fs.map (fun f => f.name.getD [])).zip vs) else .unnamed vs))) (ctx ty), fun n => ?_⟩
    rw [decN, hv]
    simp only [decComposite_eq]
    cases al fs.length
    · rfl
    · simp only [Bool.not_true, Bool.false_eq_true, if_false, if_true]
      generalize decItems (decN reg al ctx n c') (List.map (fun f => f.id) fs) r = y
      rcases y with _ | ⟨_, _⟩ | ⟨_, _⟩ | _ <;> rfl

theorem decItems_first {dec : Id → List UInt8 → Option (Out DErr (Value Γ × List UInt8))} : ∀ (fs : List (Field Id)) (bs : List UInt8),
    (∀ e r, decItems dec (fs.map (fun f => f.id)) bs = some (.err (e, r)) →
      ∃ k f vs, fs[k]? = some f ∧ decItems dec ((fs.take k).map (fun f => f.id)) bs = some (.ok (vs, r)) ∧ dec f.id r = some (.err e)) ∧
    (decItems dec (fs.map (fun f => f.id)) bs = some .panic →
      ∃ k f vs r, fs[k]? = some f ∧ decItems dec ((fs.take k).map (fun f => f.id)) bs = some (.ok (vs, r)) ∧ dec f.id r = some .panic) := by
  intro fs
  induction fs with
  | nil => intro bs; exact ⟨(by intro e r h; cases h), (by intro h; cases h)⟩
  | cons f fs ih =>
    intro bs
    rw [List.map_cons, decItems]
    rcases h : dec f.id bs with _ | ⟨v, r⟩ | e | _
    · exact ⟨(by intro e r h; cases h), (by intro h; cases h)⟩
    · simp only
      constructor
      · intro e r' he
        have := (ih r).1 e r' (by
          rcases h' : decItems dec (fs.map (fun f => f.id)) r with _ | ⟨_, _⟩ | ⟨_, _⟩ | _ <;> rw [h'] at he <;> first | exact h'.trans he | cases he)
        obtain ⟨k, g, vs, hk, hd, hg⟩ := this
        refine ⟨k + 1, g, v :: vs, by simpa using hk, ?_, hg⟩
        rw [List.take_succ_cons, List.map_cons, decItems, h]
        simp only [hd]
      · intro he
        have := (ih r).2 (by
          rcases h' : decItems dec (fs.map (fun f => f.id)) r with _ | ⟨_, _⟩ | ⟨_, _⟩ | _ <;> rw [h'] at he <;> first | exact h'.trans he | cases he)
        obtain ⟨k, g, vs, r', hk, hd, hg⟩ := this
        refine ⟨k + 1, g, v :: vs, r', by simpa using hk, ?_, hg⟩
        rw [List.take_succ_cons, List.map_cons, decItems, h]
        simp only [hd]
    · refine ⟨?_, by intro h; cases h⟩
      intro e' r he
      cases he
      exact ⟨0, f, [], rfl, rfl, h⟩
    · refine ⟨(by intro e r h; cases h), ?_⟩
      intro _
      exact ⟨0, f, [], bs, rfl, rfl, h⟩

theorem decItems_panic {dec : Id → List UInt8 → Option (Out DErr (Value Γ × List UInt8))} {ts1 : List Id} {t : Id} {ts2 : List Id} {p r : List UInt8}
    {vs : List (Value Γ)} (h1 : decItems dec ts1 (p ++ r) = some (.ok (vs, r))) (h2 : dec t r = some .panic) :
    decItems dec (ts1 ++ t :: ts2) (p ++ r) = some .panic := by
  generalize p ++ r = bs at h1
  induction ts1 generalizing bs vs with
  | nil => cases h1; rw [List.nil_append, decItems, h2]
  | cons u us ih =>
    rw [decItems] at h1
    rw [List.cons_append, decItems]
    split at h1
    · cases h1
    · cases h1
    · cases h1
    · next v q hv =>
      split at h1
      · next ws q' hw =>
        cases h1
        rw [ih _ hw]
      · next hx => exact (hx _ _ h1).elim

theorem fields_split {fs : List (Field Id)} {k : Nat} {f : Field Id} (hk : fs[k]? = some f) :
    fs.map (fun f => f.id) = (fs.take k).map (fun f => f.id) ++ f.id :: (fs.drop (k + 1)).map (fun f => f.id) := by
  obtain ⟨hk', hk⟩ := List.getElem?_eq_some_iff.1 hk
  rw [← List.map_cons, ← List.map_append, ← hk, ← List.drop_eq_getElem_cons hk', List.take_append_drop]

/-- The decoder met in an error: this is the first thing that is wrong. -/
theorem decN_faults (reg : Reg Id) (al : Nat → Bool) (n : Nat) : ∀ c t bs,
    (∀ e, decN reg al id n c t bs = some (.err e) → DecFault reg al c t bs e) ∧ (decN reg al id n c t bs = some .panic → Starved reg al c t bs) := by
  induction n with
  | zero => intro c t bs; exact ⟨(by intro e h; cases h), (by intro h; cases h)⟩
  | succ n ih =>
    intro c t bs
    rcases hv : visit reg c t bs with e | ⟨ty, c', s⟩
    · constructor
      · intro e' h
        rw [decN, hv] at h
        cases h
        exact .here (visit_error_iff.1 hv)
      · intro h
        rw [decN, hv] at h
        cases h
    · cases hs : s.split with
      | none =>
        cases s with
        | leaf l r =>
          rw [decN, hv]
          exact ⟨(by intro e h; cases h), (by intro h; cases h)⟩
        | _ => cases hs
      | some x =>
        obtain ⟨name, fs, r⟩ := x
        obtain ⟨mk, hm⟩ := decN_split (al := al) (ctx := id) hv hs
        have hN := visit_parts_iff.2 ⟨s, hv, hs⟩
        rw [hm]
        by_cases ha : al fs.length = true
        · rw [if_pos ha]
          obtain ⟨h1, h2⟩ := decItems_first (dec := decN reg al id n c') fs r
          have hok : ∀ ts vs r', decItems (decN reg al id n c') ts r = some (.ok (vs, r')) →
              ∃ p, r = p ++ r' ∧ ScaleAll reg False .u256 id c' ts vs p ∧ ∀ v ∈ vs, AllocOk al v := by
            intro ts vs r' h
            obtain ⟨p, hp, hp'⟩ := decItems_sound (fun t bs v r h => decN_sound reg al id n c' t bs v r h) ts r vs r' h
            exact ⟨p, hp, hp', (decItems_alloc (fun t bs v r h => decN_alloc reg al id n c' t bs v r h) ts r vs r' h).2⟩
          rcases hi : decItems (decN reg al id n c') (fs.map (fun f => f.id)) r with _ | ⟨_, _⟩ | ⟨e, r'⟩ | _ <;> rw [hi]
          · exact ⟨(by intro e h; cases h), (by intro h; cases h)⟩
          · exact ⟨(by intro e h; cases h), (by intro h; cases h)⟩
          · refine ⟨?_, by intro h; cases h⟩
            intro e' h
            cases h
            obtain ⟨k, f, vs, hk, hd, hf⟩ := h1 e r' hi
            obtain ⟨p, hp, hp', hal⟩ := hok _ _ _ hd
            exact .part hN ha hk hp hp' hal ((ih c' f.id r').1 e hf)
          · refine ⟨(by intro e h; cases h), ?_⟩
            intro _
            obtain ⟨k, f, vs, r', hk, hd, hf⟩ := h2 hi
            obtain ⟨p, hp, hp', hal⟩ := hok _ _ _ hd
            exact .part hN ha hk hp hp' hal ((ih c' f.id r').2 hf)
        · rw [if_neg ha]
          exact ⟨(by intro e h; cases h), fun _ => .here hN (by simpa using ha)⟩

theorem decN_of_fault {reg : Reg Id} {al : Nat → Bool} {c t bs e} (h : DecFault reg al c t bs e) : ∃ n, decN reg al id n c t bs = some (.err e) := by
  induction h with
  | here h => exact ⟨1, by rw [decN, visit_error_iff.2 h]⟩
  | @part c t bs ty c' name fs r k f vs p r' e h mem hf hr before room fault ih =>
    obtain ⟨s, hv, hs⟩ := visit_parts_iff.1 h
    obtain ⟨mk, hm⟩ := decN_split (al := al) (ctx := id) hv hs
    obtain ⟨n1, h1⟩ := ih
    obtain ⟨n2, h2⟩ := decItems_complete_al reg al False id before room r'
    refine ⟨max n1 n2 + 1, ?_⟩
    have h1 := decN_mono reg al id (Nat.le_max_left n1 n2) _ _ _ _ h1
    have h2 := decItems_ext (decN_mono reg al id (Nat.le_max_right n1 n2) _) _ _ _ h2
    rw [hm, if_pos mem, fields_split hf, hr, decItems_err h2 h1]
    rfl

theorem decN_of_starved {reg : Reg Id} {al : Nat → Bool} {c t bs} (h : Starved reg al c t bs) : ∃ n, decN reg al id n c t bs = some .panic := by
  induction h with
  | here h mem =>
    obtain ⟨s, hv, hs⟩ := visit_parts_iff.1 h
    obtain ⟨mk, hm⟩ := decN_split (al := al) (ctx := id) hv hs
    exact ⟨1, by rw [hm, if_neg (by simp [mem])]⟩
  | @part c t bs ty c' name fs r k f vs p r' h mem hf hr before room later ih =>
    obtain ⟨s, hv, hs⟩ := visit_parts_iff.1 h
    obtain ⟨mk, hm⟩ := decN_split (al := al) (ctx := id) hv hs
    obtain ⟨n1, h1⟩ := ih
    obtain ⟨n2, h2⟩ := decItems_complete_al reg al False id before room r'
    refine ⟨max n1 n2 + 1, ?_⟩
    have h1 := decN_mono reg al id (Nat.le_max_left n1 n2) _ _ _ _ h1
    have h2 := decItems_ext (decN_mono reg al id (Nat.le_max_right n1 n2) _) _ _ _ h2
    rw [hm, if_pos mem, fields_split hf, hr, decItems_panic h2 h1]
    rfl

theorem decodeId_err {reg : Reg Id} {al : Nat → Bool} {t : Id} {bs : List UInt8} {e : DErr} : decodeWith id reg al t bs = .err e ↔ DecFault reg al false t bs e := by
  rw [decodeWith_eq]
  exact ⟨fun ⟨n, h⟩ => (decN_faults reg al n false t bs).1 e h, decN_of_fault⟩

theorem decodeId_panic {reg : Reg Id} {al : Nat → Bool} {t : Id} {bs : List UInt8} : decodeWith id reg al t bs = .panic ↔ Starved reg al false t bs := by
  rw [decodeWith_eq]
  exact ⟨fun ⟨n, h⟩ => (decN_faults reg al n false t bs).2 h, decN_of_starved⟩

theorem decodeFieldsId_err {reg : Reg Id} {al : Nat → Bool} {fs : List (Field Id)} {bs r : List UInt8} {e : DErr} :
    decodeFields id reg al fs bs = .err (e, r) ↔ FieldsFault reg al fs bs e r := by
  rw [decodeFields_eq]
  constructor
  · rintro ⟨n, h⟩
    rw [decComposite_eq] at h
    cases ha : al fs.length with
    | false => rw [ha] at h; cases h
    | true =>
      rw [ha] at h
      simp only [Bool.not_true, Bool.false_eq_true, if_false] at h
      rcases hi : decItems (decN reg al id n false) (fs.map (fun f => f.id)) bs with _ | ⟨_, _⟩ | ⟨e, r'⟩ | _ <;> rw [hi] at h <;> cases h
      obtain ⟨k, f, vs, hk, hd, hf⟩ := (decItems_first (dec := decN reg al id n false) fs bs).1 _ _ hi
      obtain ⟨p, hp, hp'⟩ := decItems_sound (fun t bs v r h => decN_sound reg al id n false t bs v r h) _ _ _ _ hd
      exact ⟨ha, k, f, vs, p, hk, hp, hp', (decItems_alloc (fun t bs v r h => decN_alloc reg al id n false t bs v r h) _ _ _ _ hd).2, (decN_faults reg al n _ _ _).1 _ hf⟩
  · rintro ⟨ha, k, f, vs, p, hk, hp, hp', hal, hf⟩
    obtain ⟨n1, h1⟩ := decN_of_fault hf
    obtain ⟨n2, h2⟩ := decItems_complete_al reg al False id hp' hal r
    refine ⟨max n1 n2, ?_⟩
    have h1 := decN_mono reg al id (Nat.le_max_left n1 n2) _ _ _ _ h1
    have h2 := decItems_ext (decN_mono reg al id (Nat.le_max_right n1 n2) _) _ _ _ h2
    rw [decComposite_eq, ha, fields_split hk, hp, decItems_err h2 h1]
    rfl

theorem decodeFieldsId_panic {reg : Reg Id} {al : Nat → Bool} {fs : List (Field Id)} {bs : List UInt8} :
    decodeFields id reg al fs bs = .panic ↔ FieldsStarved reg al fs bs := by
  rw [decodeFields_eq]
  constructor
  · rintro ⟨n, h⟩
    rw [decComposite_eq] at h
    cases ha : al fs.length with
    | false => exact .inl ha
    | true =>
      rw [ha] at h
      simp only [Bool.not_true, Bool.false_eq_true, if_false] at h
      rcases hi : decItems (decN reg al id n false) (fs.map (fun f => f.id)) bs with _ | ⟨_, _⟩ | ⟨e, r'⟩ | _ <;> rw [hi] at h <;> cases h
      obtain ⟨k, f, vs, r, hk, hd, hf⟩ := (decItems_first (dec := decN reg al id n false) fs bs).2 hi
      obtain ⟨p, hp, hp'⟩ := decItems_sound (fun t bs v r h => decN_sound reg al id n false t bs v r h) _ _ _ _ hd
      exact .inr ⟨k, f, vs, p, r, hk, hp, hp', (decItems_alloc (fun t bs v r h => decN_alloc reg al id n false t bs v r h) _ _ _ _ hd).2, (decN_faults reg al n _ _ _).2 hf⟩
  · rintro (ha | ⟨k, f, vs, p, r, hk, hp, hp', hal, hf⟩)
    · exact ⟨0, by rw [decComposite_eq, ha]; rfl⟩
    · obtain ⟨n1, h1⟩ := decN_of_starved hf
      obtain ⟨n2, h2⟩ := decItems_complete_al reg al False id hp' hal r
      refine ⟨max n1 n2, ?_⟩
      have h1 := decN_mono reg al id (Nat.le_max_left n1 n2) _ _ _ _ h1
      have h2 := decItems_ext (decN_mono reg al id (Nat.le_max_right n1 n2) _) _ _ _ h2
      rw [decComposite_eq]
      split
      · rfl
      · rw [fields_split hk, hp, decItems_panic h2 h1]

end SV
