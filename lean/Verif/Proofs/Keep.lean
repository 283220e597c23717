import Verif.Spec.Keep
import Verif.Spec.ReadAs
import Verif.Proofs.Express
import Verif.Proofs.SerdeTyped
/-
Lemmas for typed data that is kept as text.
-/
namespace SV

variable {T U : Type} {u : Uni}

/-! ### What values with the same data have in common -/

/-- Composites with the same data. -/
inductive SameFields : Composite T → Composite U → Prop
  | named {fs : List (Str × Value T)} {gs : List (Str × Value U)} (names : fs.map (fun p => p.1) = gs.map (fun p => p.1))
      (sub : ∀ (i : Nat) (x : Str × Value T) (y : Str × Value U), fs[i]? = some x → gs[i]? = some y → SameData x.2 y.2) : SameFields (.named fs) (.named gs)
  | unnamed {vs : List (Value T)} {ws : List (Value U)} (len : vs.length = ws.length)
      (sub : ∀ (i : Nat) (x : Value T) (y : Value U), vs[i]? = some x → ws[i]? = some y → SameData x y) : SameFields (.unnamed vs) (.unnamed ws)

theorem SameFields.same {c : Composite T} {c' : Composite U} (h : SameFields c c') (x : T) (y : U) : SameData (.mk (.composite c) x) (.mk (.composite c') y) := by
  cases h with
  | named names sub => exact .named names sub
  | unnamed len sub => exact .unnamed len sub

theorem SameData.number_eq {v : Value T} {w : Value U} (h : SameData v w) : v.number? = w.number? := by
  cases h with
  | number hv hw => rw [hv, hw]
  | prim => rename_i p c d; cases p <;> rfl
  | bits => rfl
  | named => rfl
  | unnamed => rfl
  | variant => rfl

theorem SameData.prim_eq {v : Value T} {w : Value U} (h : SameData v w) {p : Primitive} (hv : v.value = .primitive p) (hn : v.number? = none) : w.value = .primitive p := by
  cases h with
  | number hv' hw => rw [hv'] at hn; cases hn
  | prim => cases hv; rfl
  | bits => cases hv
  | named => cases hv
  | unnamed => cases hv
  | variant => cases hv

theorem SameData.prim_some {v : Value T} {w : Value U} (h : SameData v w) {p : Primitive} (hv : v.value = .primitive p) : ∃ q, w.value = .primitive q := by
  cases h with
  | number hv' hw =>
    obtain ⟨d, x⟩ := w
    cases d with
    | primitive q => exact ⟨q, rfl⟩
    | composite => cases hw
    | variant => cases hw
    | bitSequence => cases hw
  | prim => exact ⟨_, rfl⟩
  | bits => cases hv
  | named => cases hv
  | unnamed => cases hv
  | variant => cases hv

theorem SameData.bits_eq {v : Value T} {w : Value U} (h : SameData v w) {b : List Bool} (hv : v.value = .bitSequence b) : w.value = .bitSequence b := by
  cases h with
  | number hv' hw =>
    obtain ⟨d, x⟩ := v
    have hv : d = _ := hv
    subst hv; cases hv'
  | prim => cases hv
  | bits => cases hv; rfl
  | named => cases hv
  | unnamed => cases hv
  | variant => cases hv

theorem SameData.composite_eq {v : Value T} {w : Value U} (h : SameData v w) {c : Composite T} (hv : v.value = .composite c) :
    ∃ c', w.value = .composite c' ∧ SameFields c c' := by
  cases h with
  | number hv' hw =>
    obtain ⟨d, x⟩ := v
    have hv : d = _ := hv
    subst hv; cases hv'
  | prim => cases hv
  | bits => cases hv
  | named names sub => cases hv; exact ⟨_, rfl, .named names sub⟩
  | unnamed len sub => cases hv; exact ⟨_, rfl, .unnamed len sub⟩
  | variant => cases hv

theorem SameData.fields_any {f : Composite T} {g : Composite U} {c d} (h : SameData (.mk (.composite f) c) (.mk (.composite g) d)) : SameFields f g := by
  obtain ⟨c', h1, h2⟩ := h.composite_eq rfl
  cases h1
  exact h2

theorem SameData.variant_eq {v : Value T} {w : Value U} (h : SameData v w) {n : Str} {f : Composite T} (hv : v.value = .variant (.mk n f)) :
    ∃ g, w.value = .variant (.mk n g) ∧ SameFields f g := by
  cases h with
  | number hv' hw =>
    obtain ⟨d, x⟩ := v
    have hv : d = _ := hv
    subst hv; cases hv'
  | prim => cases hv
  | bits => cases hv
  | named names sub => cases hv
  | unnamed len sub => cases hv
  | variant h => cases hv; exact ⟨_, rfl, h.fields_any⟩

theorem SameFields.vals {c : Composite T} {c' : Composite U} (h : SameFields c c') :
    c.vals.length = c'.vals.length ∧ ∀ (i : Nat) (x : Value T) (y : Value U), c.vals[i]? = some x → c'.vals[i]? = some y → SameData x y := by
  cases h with
  | unnamed h1 h2 => exact ⟨h1, h2⟩
  | named h1 h2 =>
    refine ⟨by simpa [Composite.vals] using congrArg List.length h1, ?_⟩
    intro i v w hv hw
    simp only [Composite.vals, List.getElem?_map, Option.map_eq_some_iff] at hv hw
    obtain ⟨p, hp, rfl⟩ := hv
    obtain ⟨q, hq, rfl⟩ := hw
    exact h2 i p q hp hq

theorem SameData.fields_eq {v : Value T} {w : Value U} (h : SameData v w) {c : Composite T} (hv : v.fields? = some c) :
    ∃ c', w.fields? = some c' ∧ SameFields c c' := by
  obtain ⟨d, x⟩ := v
  cases d with
  | composite f =>
    cases hv
    obtain ⟨c', h1, h2⟩ := h.composite_eq rfl
    obtain ⟨e, y⟩ := w
    have h1 : e = _ := h1
    subst h1
    exact ⟨c', rfl, h2⟩
  | variant f =>
    obtain ⟨n, f⟩ := f
    cases hv
    obtain ⟨c', h1, h2⟩ := h.variant_eq rfl
    obtain ⟨e, y⟩ := w
    have h1 : e = _ := h1
    subst h1
    exact ⟨c', rfl, h2⟩
  | primitive p => cases hv
  | bitSequence b => cases hv

/-! ### No signed numbers that are not negative -/

theorem noSigned_fields {w : Value U} (h : ¬ HasSignedNat w) {c : Composite U} (hc : w.fields? = some c) (x : U) : ¬ HasSignedNat (.mk (.composite c) x) := by
  obtain ⟨d, y⟩ := w
  cases d with
  | composite f =>
    cases hc
    intro hh
    apply h
    cases hh with
    | named hp hh => exact .named hp hh
    | unnamed hp hh => exact .unnamed hp hh
  | variant f => obtain ⟨n, f⟩ := f; cases hc; exact fun hh => h (.variant hh)
  | primitive p => cases hc
  | bitSequence b => cases hc

theorem noSigned_vals {c : Composite U} {x : U} (h : ¬ HasSignedNat (.mk (.composite c) x)) {w : Value U} (hw : w ∈ c.vals) : ¬ HasSignedNat w := by
  intro hh
  apply h
  cases c with
  | unnamed ws => exact .unnamed hw hh
  | named gs =>
    obtain ⟨p, hp, rfl⟩ := List.mem_map.1 hw
    exact .named hp hh

theorem unsigned_number {w : Value U} (h : ¬ HasSignedNat w) {n : Nat} (hn : w.number? = some (n : Int)) : ∃ k : U128, w.value = .primitive (.u128 k) ∧ k.val = n := by
  obtain ⟨d, y⟩ := w
  cases d with
  | composite f => cases hn
  | variant f => cases hn
  | bitSequence b => cases hn
  | primitive p =>
    cases p with
    | u128 k => simp [Value.number?] at hn; exact ⟨k, rfl, by omega⟩
    | i128 k =>
      simp [Value.number?] at hn
      exact absurd (.here (by omega)) h
    | bool b => cases hn
    | char b => cases hn
    | string b => cases hn
    | u256 b => cases hn
    | i256 b => cases hn

theorem unsign_noSigned (v : Value T) : ¬ HasSignedNat (v.mapPrim unsign).removeContext := by
  have pair : ∀ (fs : List (Str × Value T)), (∀ p ∈ fs, ¬ HasSignedNat (p.2.mapPrim unsign).removeContext) → 
      ¬ HasSignedNat (.mk (.composite (.named ((fs.map fun p => (p.1, p.2.mapPrim unsign)).map fun p => (p.1, p.2.removeContext)))) ()) := by
    intro fs ih h
    cases h with
    | named hp h =>
      simp only [List.map_map, List.mem_map] at hp
      obtain ⟨q, hq, rfl⟩ := hp
      exact ih q hq h
  have one : ∀ (vs : List (Value T)), (∀ p ∈ vs, ¬ HasSignedNat (p.mapPrim unsign).removeContext) → 
      ¬ HasSignedNat (.mk (.composite (.unnamed ((vs.map fun p => p.mapPrim unsign).map fun p => p.removeContext))) ()) := by
    intro fs ih h
    cases h with
    | unnamed hp h =>
      simp only [List.map_map, List.mem_map] at hp
      obtain ⟨q, hq, rfl⟩ := hp
      exact ih q hq h
  induction v using Value.ind with
  | named fs c ih =>
    simp only [Value.mapPrim, ValueDef.mapPrim, Composite.mapPrim, mapPrimFields_map, removeContext_comp, Composite.bare]
    exact pair fs ih
  | unnamed vs c ih =>
    simp only [Value.mapPrim, ValueDef.mapPrim, Composite.mapPrim, mapPrimVals_map, removeContext_comp, Composite.bare]
    exact one vs ih
  | vnamed n fs c ih =>
    simp only [Value.mapPrim, ValueDef.mapPrim, Composite.mapPrim, mapPrimFields_map, removeContext_variant, Composite.bare, Value.variant]
    intro h
    cases h with
    | variant h => exact pair fs ih h
  | vunnamed n vs c ih =>
    simp only [Value.mapPrim, ValueDef.mapPrim, Composite.mapPrim, mapPrimVals_map, removeContext_variant, Composite.bare, Value.variant]
    intro h
    cases h with
    | variant h => exact one vs ih h
  | bits b c => intro h; cases h
  | prim p c =>
    have hp : ((Value.mk (.primitive p) c).mapPrim unsign).removeContext = .mk (.primitive (unsign p)) () := rfl
    rw [hp]
    cases p
    case i128 n =>
      unfold unsign
      simp only
      split
      · intro h; cases h
      · next hn => intro h; cases h with | here h => exact hn h
    all_goals intro h; cases h

/-! ### Reading -/

theorem getElem_of_len {A B : Type} {l : List A} {m : List B} (h : l.length = m.length) {i : Nat} {y : B} (hy : m[i]? = some y) : ∃ x, l[i]? = some x := by
  obtain ⟨hi, -⟩ := List.getElem?_eq_some_iff.1 hy
  exact ⟨l[i], List.getElem?_eq_getElem (by omega)⟩

theorem filter_names_length {A B : Type} {l : List (Str × A)} {m : List (Str × B)} (h : l.map (fun p => p.1) = m.map (fun p => p.1)) (k : Str) :
    (l.filter (fun p => decide (p.1 = k))).length = (m.filter (fun p => decide (p.1 = k))).length := by
  induction l generalizing m with
  | nil => cases m with
    | nil => rfl
    | cons b m => cases h
  | cons a l ih =>
    cases m with
    | nil => cases h
    | cons b m =>
      simp only [List.map_cons, List.cons.injEq] at h
      have := ih h.2
      by_cases hk : a.1 = k
      · rw [List.filter_cons_of_pos (by simpa using hk), List.filter_cons_of_pos (by simpa [← h.1] using hk)]; simpa using this
      · rw [List.filter_cons_of_neg (by simpa using hk), List.filter_cons_of_neg (by simpa [← h.1] using hk)]; exact this

theorem readAs_same {t : Ty} {v : Value T} {d : Dat} (h : ReadAs t v d) :
    ∀ {w : Value U}, SameData v w → ¬ TyPart .value t → (TyPart .bytes t → ¬ HasSignedNat w) → ReadAs t w d := by
  induction h with
  | @bool v b h => intro w hs _ _; exact .bool (hs.prim_eq h (by obtain ⟨e, x⟩ := v; cases h; rfl))
  | num ty h => intro w hs _ _; exact .num ty (by rw [← hs.number_eq]; exact h)
  | @char v c h => intro w hs _ _; exact .char (hs.prim_eq h (by obtain ⟨e, x⟩ := v; cases h; rfl))
  | @charOfString v c h => intro w hs _ _; exact .charOfString (hs.prim_eq h (by obtain ⟨e, x⟩ := v; cases h; rfl))
  | @string v c h => intro w hs _ _; exact .string (hs.prim_eq h (by obtain ⟨e, x⟩ := v; cases h; rfl))
  | @stringOfChar v c h => intro w hs _ _; exact .stringOfChar (hs.prim_eq h (by obtain ⟨e, x⟩ := v; cases h; rfl))
  | @stringOf256 v s b utf8 h =>
    intro w hs _ _
    exact .stringOf256 utf8 (h.imp (fun h => hs.prim_eq h (by obtain ⟨e, x⟩ := v; cases h; rfl)) (fun h => hs.prim_eq h (by obtain ⟨e, x⟩ := v; cases h; rfl)))
  | @bytes v bs c h len each =>
    intro w hs _ hb
    have hb := hb .self
    obtain ⟨c', h1, h2⟩ := hs.composite_eq h
    have hf : w.fields? = some c' := by obtain ⟨e, y⟩ := w; cases h1; rfl
    refine .bytes h1 (by rw [← h2.vals.1]; exact len) ?_
    intro i y b hy hbi
    obtain ⟨x, hx⟩ := getElem_of_len h2.vals.1 hy
    obtain ⟨n, hn, hnb⟩ := each i x b hx hbi
    obtain ⟨k, hk, hkn⟩ := unsigned_number (noSigned_vals (noSigned_fields hb hf w.context) (List.mem_of_getElem? hy)) (n := n.val)
      (by rw [← (h2.vals.2 i x y hx hy).number_eq]; obtain ⟨e, z⟩ := x; cases hn; rfl)
    exact ⟨k, hk, by omega⟩
  | @bytesOfString v s h => intro w hs _ _; exact .bytesOfString (hs.prim_eq h (by obtain ⟨e, x⟩ := v; cases h; rfl))
  | @bytesOfChar v s h => intro w hs _ _; exact .bytesOfChar (hs.prim_eq h (by obtain ⟨e, x⟩ := v; cases h; rfl))
  | @bytesOf256 v b h =>
    intro w hs _ _
    exact .bytesOf256 (h.imp (fun h => hs.prim_eq h (by obtain ⟨e, x⟩ := v; cases h; rfl)) (fun h => hs.prim_eq h (by obtain ⟨e, x⟩ := v; cases h; rfl)))
  | unit h empty =>
    intro w hs _ _
    obtain ⟨c', h1, h2⟩ := hs.fields_eq h
    exact .unit h1 (List.length_eq_zero_iff.1 (by rw [← h2.vals.1, empty]; rfl))
  | unitStruct h empty =>
    intro w hs _ _
    obtain ⟨c', h1, h2⟩ := hs.fields_eq h
    exact .unitStruct h1 (List.length_eq_zero_iff.1 (by rw [← h2.vals.1, empty]; rfl))
  | none h =>
    intro w hs _ _
    obtain ⟨g, h1, h2⟩ := hs.variant_eq h
    cases h2 with
    | unnamed len sub =>
      rw [List.length_eq_zero_iff.1 len.symm] at h1
      exact .none h1
  | some h sub ih =>
    intro w hs hv hb
    obtain ⟨g, h1, h2⟩ := hs.variant_eq h
    cases h2 with
    | @unnamed _ ws len sub' =>
      match ws, len with
      | [y], _ =>
        refine .some h1 (ih (sub' 0 _ y rfl rfl) (fun hh => hv (.option hh)) (fun hh => ?_))
        have hf : w.fields? = some (.unnamed [y]) := by obtain ⟨e, z⟩ := w; cases h1; rfl
        exact noSigned_vals (noSigned_fields (hb (.option hh)) hf w.context) (List.mem_singleton.2 rfl)
  | newtype h sub ih =>
    intro w hs hv hb
    refine .newtype ?_ (ih hs (fun hh => hv (.newtype hh)) (fun hh => hb (.newtype hh)))
    rcases h with ⟨f, h⟩ | ⟨p, h⟩
    · obtain ⟨c', h1, -⟩ := hs.composite_eq h; exact .inl ⟨c', h1⟩
    · exact .inr (hs.prim_some h)
  | @newtypeVariant t v x d h opt str sub ih =>
    intro w hs hv hb
    obtain ⟨n, f⟩ := x
    obtain ⟨g, h1, -⟩ := hs.variant_eq h
    exact .newtypeVariant h1 opt str (ih hs (fun hh => hv (.newtype hh)) (fun hh => hb (.newtype hh)))
  | newtypeFields h sub ih =>
    intro w hs hv hb
    obtain ⟨g, h1, h2⟩ := hs.variant_eq h
    refine .newtypeFields (c := w.context) h1 (ih (h2.same _ _) (fun hh => hv (.newtype hh)) (fun hh => ?_))
    exact noSigned_fields (hb (.newtype hh)) (by obtain ⟨e, z⟩ := w; cases h1; rfl) _
  | seq h len sub ih =>
    intro w hs hv hb
    obtain ⟨c', h1, h2⟩ := hs.fields_eq h
    refine .seq h1 (by rw [← h2.vals.1]; exact len) ?_
    intro i y d hy hd
    obtain ⟨x, hx⟩ := getElem_of_len h2.vals.1 hy
    exact ih i x d hx hd (h2.vals.2 i x y hx hy) (fun hh => hv (.seq hh)) (fun hh => noSigned_vals (noSigned_fields (hb (.seq hh)) h1 w.context) (List.mem_of_getElem? hy))
  | tuple h size len sub ih =>
    intro w hs hv hb
    obtain ⟨c', h1, h2⟩ := hs.fields_eq h
    refine .tuple h1 (by rw [← h2.vals.1]; exact size) len ?_
    intro i t y d ht hy hd
    obtain ⟨x, hx⟩ := getElem_of_len h2.vals.1 hy
    have ht' := List.mem_of_getElem? ht
    exact ih i t x d ht hx hd (h2.vals.2 i x y hx hy) (fun hh => hv (.tuple ht' hh)) (fun hh => noSigned_vals (noSigned_fields (hb (.tuple ht' hh)) h1 w.context) (List.mem_of_getElem? hy))
  | tupleStruct h size len sub ih =>
    intro w hs hv hb
    obtain ⟨c', h1, h2⟩ := hs.fields_eq h
    refine .tupleStruct h1 (by rw [← h2.vals.1]; exact size) len ?_
    intro i t y d ht hy hd
    obtain ⟨x, hx⟩ := getElem_of_len h2.vals.1 hy
    have ht' := List.mem_of_getElem? ht
    exact ih i t x d ht hx hd (h2.vals.2 i x y hx hy) (fun hh => hv (.tupleStruct ht' hh)) (fun hh => noSigned_vals (noSigned_fields (hb (.tupleStruct ht' hh)) h1 w.context) (List.mem_of_getElem? hy))
  | @structByName fs v ps ds h len once sub absent ih =>
    intro w hs hv hb
    obtain ⟨c', h1, h2⟩ := hs.composite_eq h
    have hf : w.fields? = some c' := by obtain ⟨e, z⟩ := w; cases h1; rfl
    cases h2 with
    | @named _ qs names sub' =>
      refine .structByName h1 len (fun f hf => by rw [← filter_names_length names]; exact once f hf) ?_ ?_
      · intro i f d y hfi hdi hy
        obtain ⟨j, hj⟩ := List.getElem?_of_mem hy
        have hlen : ps.length = qs.length := by simpa using congrArg List.length names
        obtain ⟨x, hx⟩ := getElem_of_len hlen hj
        have hname : x.1 = f.1 := by
          have := congrArg (fun l => l[j]?) names
          simp only [List.getElem?_map, hx, hj, Option.map_some, Option.some.injEq] at this
          exact this
        have hfm := List.mem_of_getElem? hfi
        refine ih i f d x.2 hfi hdi (by rw [← hname]; exact List.mem_of_getElem? hx) (sub' j x _ hx hj) (fun hh => hv (.struct hfm hh)) (fun hh => ?_)
        exact noSigned_vals (noSigned_fields (hb (.struct hfm hh)) hf w.context) (List.mem_map.2 ⟨_, hy, rfl⟩)
      · intro i f d hfi hdi hn
        exact absent i f d hfi hdi (by rw [names]; exact hn)
  | structInOrder h size len sub ih =>
    intro w hs hv hb
    obtain ⟨c', h1, h2⟩ := hs.composite_eq h
    have hf : w.fields? = some c' := by obtain ⟨e, z⟩ := w; cases h1; rfl
    cases h2 with
    | @unnamed _ ws len' sub' =>
      refine .structInOrder h1 (by omega) len ?_
      intro i f y d hfi hy hd
      obtain ⟨x, hx⟩ := getElem_of_len len' hy
      have hfm := List.mem_of_getElem? hfi
      exact ih i f x d hfi hx hd (sub' i x y hx hy) (fun hh => hv (.struct hfm hh)) (fun hh => noSigned_vals (noSigned_fields (hb (.struct hfm hh)) hf w.context) (List.mem_of_getElem? hy))
  | structOfBits h len bits absent => intro w hs _ _; exact .structOfBits (hs.bits_eq h) len bits absent
  | enumUnit h first empty =>
    intro w hs _ _
    obtain ⟨g, h1, h2⟩ := hs.variant_eq h
    exact .enumUnit h1 first (List.length_eq_zero_iff.1 (by rw [← h2.vals.1, empty]; rfl))
  | @enumNewtype pre post v n f t c d h first sub ih =>
    intro w hs hv hb
    obtain ⟨g, h1, h2⟩ := hs.variant_eq h
    refine .enumNewtype (c := w.context) h1 first (ih (h2.same _ _) (fun hh => hv (.enumNewtype (n := n) (by simp) hh)) (fun hh => ?_))
    exact noSigned_fields (hb (.enumNewtype (n := n) (by simp) hh)) (by obtain ⟨e, z⟩ := w; cases h1; rfl) _
  | @enumTuple pre post v n f ts c ds h first sub ih =>
    intro w hs hv hb
    obtain ⟨g, h1, h2⟩ := hs.variant_eq h
    have key : ∀ {s : Ty}, s ≠ .tuple ts → TyPart s (.tuple ts) → TyPart s (.enum (pre ++ (n, .tuple ts) :: post)) := by
      intro s hne hh
      generalize he : Ty.tuple ts = e at hh
      cases hh with
      | self => exact absurd he.symm hne
      | tuple ht hh => cases he; exact .enumTuple (n := n) (by simp) ht hh
      | _ => cases he
    refine .enumTuple (c := w.context) h1 first (ih (h2.same _ _) (fun hh => hv (key (by simp) hh)) (fun hh => ?_))
    exact noSigned_fields (hb (key (by simp) hh)) (by obtain ⟨e, z⟩ := w; cases h1; rfl) _
  | @enumStruct pre post v n f fs c ds h first sub ih =>
    intro w hs hv hb
    obtain ⟨g, h1, h2⟩ := hs.variant_eq h
    have key : ∀ {s : Ty}, s ≠ .struct fs → TyPart s (.struct fs) → TyPart s (.enum (pre ++ (n, .struct fs) :: post)) := by
      intro s hne hh
      generalize he : Ty.struct fs = e at hh
      cases hh with
      | self => exact absurd he.symm hne
      | struct ht hh => cases he; exact .enumStruct (n := n) (by simp) ht hh
      | _ => cases he
    refine .enumStruct (c := w.context) h1 first (ih (h2.same _ _) (fun hh => hv (key (by simp) hh)) (fun hh => ?_))
    exact noSigned_fields (hb (key (by simp) hh)) (by obtain ⟨e, z⟩ := w; cases h1; rfl) _
  | @map chars t v ps es m h keys names sub all ih =>
    intro w hs hv hb
    obtain ⟨c', h1, h2⟩ := hs.fields_eq h
    cases h2 with
    | @named _ qs pq sub' =>
      have hlen : ps.length = qs.length := by simpa using congrArg List.length pq
      refine .map h1 (fun hc q hq => ?_) (by rw [names]; exact pq) ?_ all
      · have : q.1 ∈ qs.map (fun p => p.1) := List.mem_map.2 ⟨q, hq, rfl⟩
        rw [← pq] at this
        obtain ⟨p, hp, hpq⟩ := List.mem_map.1 this
        rw [← hpq]
        exact keys hc p hp
      · intro i q e hq he
        obtain ⟨x, hx⟩ := getElem_of_len hlen hq
        exact ih i x e hx he (sub' i x q hx hq) (fun hh => hv (.map hh)) (fun hh => noSigned_vals (noSigned_fields (hb (.map hh)) h1 w.context) (List.mem_map.2 ⟨_, List.mem_of_getElem? hq, rfl⟩))
  | value h => intro w _ hv _; exact absurd .self hv

/-! ### `to_value` gives values that can be texts -/

/-- What is to be shown of one type. -/
def TextTy (u : Uni) (t : Ty) : Prop := ∀ d s v, t.ser d = some s → s.toValue = .ok v → Textual u v

theorem bindE_ok {A B E : Type} {x : Except E A} {f : A → Except E B} {b : B} (h : (x >>= f) = .ok b) : ∃ a, x = .ok a ∧ f a = .ok b := by
  cases x with
  | error e => cases h
  | ok a => exact ⟨a, rfl, h⟩

theorem text_all {t : Ty} (h : TextTy u t) : ∀ {ds : List Dat} {ss : List Ser} {vs : List (Value Unit)}, serAll t.ser ds = some ss → toValues ss = .ok vs → ∀ v ∈ vs, Textual u v := by
  intro ds
  induction ds with
  | nil => intro ss vs hs hv; cases hs; cases hv; simp
  | cons d ds ih =>
    intro ss vs hs hv
    rw [serAll] at hs
    split at hs
    · next s ss' h1 h2 =>
      cases hs
      obtain ⟨v, hv1, hv⟩ := bindE_ok hv
      obtain ⟨vs', hv2, hv⟩ := bindE_ok hv
      cases hv
      simp only [List.mem_cons, forall_eq_or_imp]
      exact ⟨h d s v h1 hv1, ih h2 hv2⟩
    · cases hs

theorem text_list {ts : List Ty} (h : ∀ t ∈ ts, TextTy u t) : ∀ {ds : List Dat} {ss : List Ser} {vs : List (Value Unit)}, Ty.sers ts ds = some ss → toValues ss = .ok vs → ∀ v ∈ vs, Textual u v := by
  induction ts with
  | nil =>
    intro ds ss vs hs hv
    cases ds with
    | nil => cases hs; cases hv; simp
    | cons => cases hs
  | cons t ts ih =>
    intro ds ss vs hs hv
    cases ds with
    | nil => cases hs
    | cons d ds =>
      rw [Ty.sers] at hs
      split at hs
      · next s ss' h1 h2 =>
        cases hs
        obtain ⟨v, hv1, hv⟩ := bindE_ok hv
        obtain ⟨vs', hv2, hv⟩ := bindE_ok hv
        cases hv
        simp only [List.mem_cons, forall_eq_or_imp]
        exact ⟨h t (by simp) d s v h1 hv1, ih (fun x hx => h x (by simp [hx])) h2 hv2⟩
      · cases hs

theorem text_fields {fs : List (Str × Ty)} (h : ∀ f ∈ fs, TextTy u f.2) : ∀ {ds : List Dat} {ss : List (Str × Ser)} {gs : List (Str × Value Unit)},
    Ty.serFields fs ds = some ss → toFields ss = .ok gs → ∀ p ∈ gs, Textual u p.2 := by
  induction fs with
  | nil =>
    intro ds ss vs hs hv
    cases ds with
    | nil => cases hs; cases hv; simp
    | cons => cases hs
  | cons f fs ih =>
    obtain ⟨n, t⟩ := f
    intro ds ss vs hs hv
    cases ds with
    | nil => cases hs
    | cons d ds =>
      rw [Ty.serFields] at hs
      split at hs
      · next s ss' h1 h2 =>
        cases hs
        obtain ⟨v, hv1, hv⟩ := bindE_ok hv
        obtain ⟨vs', hv2, hv⟩ := bindE_ok hv
        cases hv
        simp only [List.mem_cons, forall_eq_or_imp]
        exact ⟨h (n, t) (by simp) d s v h1 hv1, ih (fun x hx => h x (by simp [hx])) h2 hv2⟩
      · cases hs

theorem text_map {t : Ty} (h : TextTy u t) {b : Bool} : ∀ {es : List (Str × Dat)} {ss : List (Ser × Ser)} {gs : List (Str × Value Unit)}, serMap b t.ser es = some ss → toEntries ss = .ok gs →
    ∀ p ∈ gs, Textual u p.2 := by
  intro es
  induction es with
  | nil => intro ss vs hs hv; cases hs; cases hv; simp
  | cons e es ih =>
    obtain ⟨k, d⟩ := e
    intro ss gs hs hv
    rw [serMap] at hs
    split at hs
    · next s ss' h1 h2 =>
      split at hs
      · cases hs
      · have key : ∀ x, ss = (x, s) :: ss' → ∀ p ∈ gs, Textual u p.2 := by
          rintro x rfl
          obtain ⟨v, hv1, hv⟩ := bindE_ok hv
          obtain ⟨k', hv2, hv⟩ := bindE_ok hv
          obtain ⟨v', hv3, hv⟩ := bindE_ok hv
          obtain ⟨vs', hv4, hv⟩ := bindE_ok hv
          cases hv
          simp only [List.mem_cons, forall_eq_or_imp]
          exact ⟨h d s v' h1 hv3, ih h2 hv4⟩
        split at hs
        · cases hs; exact key _ rfl
        · cases hs; exact key _ rfl
        · cases hs
    · cases hs

theorem nameOk_option : NameOk u "None".toList ∧ NameOk u "Some".toList := by
  constructor <;> intro h <;> decide

theorem returns_text {t : Ty} (h : Returns t) : NamesOk u t → TextTy u t := by
  induction h with
  | bool => intro _ d s v hs hv; cases d <;> cases hs; cases hv; exact .prim (by simp)
  | num t =>
    intro _ d s v hs hv
    cases d with
    | num n =>
      rw [Ty.ser] at hs
      split at hs
      · cases hs
        cases hv
        refine .prim ?_
        have := repNum_iff.2 (rfl : n.toPrim = _)
        revert this
        generalize n.toPrim = p
        intro h
        cases h <;> simp
      · cases hs
    | _ => cases hs
  | char => intro _ d s v hs hv; cases d <;> cases hs; cases hv; exact .prim (by simp)
  | string => intro _ d s v hs hv; cases d <;> cases hs; cases hv; exact .prim (by simp)
  | bytes =>
    intro _ d s v hs hv
    cases d <;> cases hs
    cases hv
    refine .unnamed ?_
    intro v hv
    simp only [List.mem_map] at hv
    obtain ⟨b, -, rfl⟩ := hv
    exact .prim (by simp)
  | unit => intro _ d s v hs hv; cases d <;> cases hs; cases hv; exact .unnamed (by simp)
  | unitStruct => intro _ d s v hs hv; cases d <;> cases hs; cases hv; exact .unnamed (by simp)
  | @option t _ ih =>
    intro hn d s v hs hv
    cases d with
    | none => cases hs; cases hv; exact .vunnamed nameOk_option.1 (by simp)
    | some d =>
      rw [Ty.ser] at hs
      obtain ⟨s', h1, rfl⟩ := map_some hs
      obtain ⟨w, hw, hv⟩ := bindE_ok hv
      cases hv
      refine .vunnamed nameOk_option.2 ?_
      simp only [List.mem_singleton, forall_eq]
      exact ih (fun vs h => hn vs (.option h)) d s' w h1 hw
    | _ => cases hs
  | @seq t _ ih =>
    intro hn d s v hs hv
    cases d with
    | list ds =>
      rw [Ty.ser] at hs
      obtain ⟨ss, h1, rfl⟩ := map_some hs
      obtain ⟨w, hw, hv⟩ := bindE_ok hv
      cases hv
      exact .unnamed (text_all (ih fun vs h => hn vs (.seq h)) h1 hw)
    | _ => cases hs
  | @tuple ts _ ih =>
    intro hn d s v hs hv
    cases d with
    | list ds =>
      rw [Ty.ser] at hs
      obtain ⟨ss, h1, rfl⟩ := map_some hs
      obtain ⟨w, hw, hv⟩ := bindE_ok hv
      cases hv
      exact .unnamed (text_list (fun t ht => ih t ht fun vs h => hn vs (.tuple ht h)) h1 hw)
    | _ => cases hs
  | @tupleStruct ts _ ih =>
    intro hn d s v hs hv
    cases d with
    | list ds =>
      rw [Ty.ser] at hs
      obtain ⟨ss, h1, rfl⟩ := map_some hs
      obtain ⟨w, hw, hv⟩ := bindE_ok hv
      cases hv
      exact .unnamed (text_list (fun t ht => ih t ht fun vs h => hn vs (.tupleStruct ht h)) h1 hw)
    | _ => cases hs
  | @struct fs names _ ih =>
    intro hn d s v hs hv
    cases d with
    | list ds =>
      rw [Ty.ser] at hs
      obtain ⟨ss, h1, rfl⟩ := map_some hs
      obtain ⟨w, hw, hv⟩ := bindE_ok hv
      cases hv
      refine .named ?_
      rw [show w.map (fun p => (p.1, p.2)) = w by simp]
      exact text_fields (fun f hf => ih f hf fun vs h => hn vs (.struct hf h)) h1 hw
    | _ => cases hs
  | @enum vs newtype tuple names struct ihT ihS =>
    intro hn d s v hs hv
    cases d with
    | enum name ds =>
      rw [Ty.ser] at hs
      obtain ⟨y, hy, hs, -⟩ := serVariant_find hs
      have hname : NameOk u name := hn vs .self (name, y) hy
      cases y with
      | unit =>
        match ds with
        | [] => cases hs; cases hv; exact .vunnamed hname (by simp)
        | _ :: _ => cases hs
      | newtype t => exact absurd rfl (newtype _ hy t)
      | tuple ts =>
        rw [VTy.ser] at hs
        obtain ⟨ss, h1, rfl⟩ := map_some hs
        obtain ⟨w, hw, hv⟩ := bindE_ok hv
        cases hv
        exact .vunnamed hname (text_list (fun t ht => ihT _ hy ts rfl t ht fun vs h => hn vs (.enumTuple hy ht h)) h1 hw)
      | struct fs =>
        rw [VTy.ser] at hs
        obtain ⟨ss, h1, rfl⟩ := map_some hs
        obtain ⟨w, hw, hv⟩ := bindE_ok hv
        cases hv
        exact .vnamed hname (text_fields (fun f hf => ihS _ hy fs rfl f hf fun vs h => hn vs (.enumStruct hy hf h)) h1 hw)
    | _ => cases hs
  | @map b t _ ih =>
    intro hn d s v hs hv
    cases d with
    | map es =>
      rw [Ty.ser] at hs
      obtain ⟨ss, h1, rfl⟩ := map_some hs
      obtain ⟨w, hw, hv⟩ := bindE_ok hv
      cases hv
      refine .named ?_
      rw [show w.map (fun p => (p.1, p.2)) = w by simp]
      exact text_map (ih fun vs h => hn vs (.map h)) h1 hw
    | _ => cases hs

theorem returns_noValue {t : Ty} (h : Returns t) : ¬ TyPart .value t := by
  intro hv
  induction h with
  | option _ ih => cases hv with | option h => exact ih h
  | seq _ ih => cases hv with | seq h => exact ih h
  | tuple _ ih => cases hv with | tuple ht h => exact ih _ ht h
  | tupleStruct _ ih => cases hv with | tupleStruct ht h => exact ih _ ht h
  | struct _ _ ih => cases hv with | struct ht h => exact ih _ ht h
  | enum newtype _ _ _ ihT ihS =>
    cases hv with
    | enumNewtype hv h => exact newtype _ hv _ rfl
    | enumTuple hv ht h => exact ihT _ hv _ rfl _ ht h
    | enumStruct hv ht h => exact ihS _ hv _ rfl _ ht h
  | map _ ih => cases hv with | map h => exact ih h
  | _ => cases hv

end SV
