import Verif.Spec.Trip
import Verif.Proofs.Trip
import Verif.Proofs.De
import Verif.Proofs.SerdePlays
/-
Which values keep their data when they leave the program and come back (C58).
-/
namespace SV

variable {T U : Type}

theorem boolList_unique {vs : List (Value T)} {a b : List Bool} (h : BoolList vs a) (h' : BoolList vs b) : a = b := by
  refine List.ext_getElem? fun i => ?_
  rcases Nat.lt_or_ge i vs.length with hi | hi
  · have ha := h.1 ▸ hi
    have hb := h'.1 ▸ hi
    obtain ⟨c, hc⟩ := h.2 i _ _ (List.getElem?_eq_getElem hi) (List.getElem?_eq_getElem ha)
    obtain ⟨c', hc'⟩ := h'.2 i _ _ (List.getElem?_eq_getElem hi) (List.getElem?_eq_getElem hb)
    rw [hc] at hc'
    rw [List.getElem?_eq_getElem ha, List.getElem?_eq_getElem hb]
    simp only [Value.mk.injEq, ValueDef.primitive.injEq, Primitive.bool.injEq] at hc'
    exact congrArg some hc'.1
  · rw [List.getElem?_eq_none (h.1 ▸ hi), List.getElem?_eq_none (h'.1 ▸ hi)]

theorem flat_back_same {v : Value T} {w u : Value Unit} (h : Flat v w) (hb : Back w u) : SameData v u ↔ ValueSafe v := by
  induction h generalizing u with
  | @prim p c h =>
    cases hb with
    | prim =>
      refine ⟨fun _ => ?_, fun _ => .prim⟩
      cases p with
      | bool => exact .bool
      | char => exact .char
      | string => exact .string
      | u128 n => exact .number rfl
      | i128 n => exact .number rfl
      | u256 b => exact absurd rfl (h b).1
      | i256 b => exact absurd rfl (h b).2
    | u256 => exact absurd rfl (h _).1
    | i256 => exact absurd rfl (h _).2
  | @u256 b c vs h =>
    refine ⟨fun hs => ?_, fun hs => by cases hs with | number h => cases h⟩
    cases hb with
    | unnamed => cases hs with | number h => cases h
  | @i256 b c vs h =>
    refine ⟨fun hs => ?_, fun hs => by cases hs with | number h => cases h⟩
    cases hb with
    | unnamed => cases hs with | number h => cases h
  | @bits b c vs h =>
    refine ⟨fun _ => .bits, fun _ => ?_⟩
    cases hb with
    | named first => exact absurd rfl (first _ rfl)
    | bitsLike fields bools =>
      cases fields
      rw [boolList_unique bools h]
      exact .bits
  | @named fs gs c names sub ih =>
    cases hb with
    | @named _ us _ first names' sub' =>
      have hfirst : ∀ p, fs.head? = some p → p.1 ≠ "__bitvec__values__".toList := by
        intro p hp he
        cases fs with
        | nil => cases hp
        | cons q fs =>
          cases hp
          cases gs with
          | nil => simp at names
          | cons g gs =>
            simp only [List.map_cons, List.cons.injEq] at names
            exact first g rfl (by rw [← names.1, he])
      have hlen : fs.length = gs.length := by simpa using congrArg List.length names
      have hlen' : gs.length = us.length := by simpa using congrArg List.length names'
      constructor
      · intro hs
        cases hs with
        | number h => cases h
        | named _ hsub =>
          refine .named hfirst fun p hp => ?_
          obtain ⟨i, hi, rfl⟩ := List.mem_iff_getElem.1 hp
          have h1 := List.getElem?_eq_getElem hi
          have h2 := List.getElem?_eq_getElem (hlen ▸ hi : i < gs.length)
          have h3 := List.getElem?_eq_getElem ((hlen.trans hlen') ▸ hi : i < us.length)
          exact (ih i _ _ h1 h2 (sub' i _ _ h2 h3)).1 (hsub i _ _ h1 h3)
      · intro hs
        cases hs with
        | number h => cases h
        | named _ hsafe =>
          refine .named (names.trans names') fun i x y hx hy => ?_
          have hi := (List.getElem?_eq_some_iff.1 hx).1
          have h2 := List.getElem?_eq_getElem (hlen ▸ hi : i < gs.length)
          exact (ih i _ _ hx h2 (sub' i _ _ h2 hy)).2 (hsafe x (List.mem_of_getElem? hx))
    | @bitsLike x gs' f bs _ fields bools =>
      refine ⟨fun hs => (by cases hs with | number h => cases h), fun hs => ?_⟩
      cases hs with
      | number h => cases h
      | named first =>
        cases fs with
        | nil => simp at names
        | cons q fs =>
          simp only [List.map_cons, List.cons.injEq] at names
          exact absurd names.1 (first q rfl)
  | @unnamed vs ws c len sub ih =>
    cases hb with
    | @unnamed _ us _ len' sub' =>
      constructor
      · intro hs
        cases hs with
        | number h => cases h
        | unnamed _ hsub =>
          refine .unnamed fun p hp => ?_
          obtain ⟨i, hi, rfl⟩ := List.mem_iff_getElem.1 hp
          have h1 := List.getElem?_eq_getElem hi
          have h2 := List.getElem?_eq_getElem (len ▸ hi : i < ws.length)
          have h3 := List.getElem?_eq_getElem ((len.trans len') ▸ hi : i < us.length)
          exact (ih i _ _ h1 h2 (sub' i _ _ h2 h3)).1 (hsub i _ _ h1 h3)
      · intro hs
        cases hs with
        | number h => cases h
        | unnamed hsafe =>
          refine .unnamed (len.trans len') fun i x y hx hy => ?_
          have hi := (List.getElem?_eq_some_iff.1 hx).1
          have h2 := List.getElem?_eq_getElem (len ▸ hi : i < ws.length)
          exact (ih i _ _ hx h2 (sub' i _ _ h2 hy)).2 (hsafe x (List.mem_of_getElem? hx))
  | @variant n f w c d h ih =>
    refine ⟨fun hs => ?_, fun hs => by cases hs with | number h => cases h⟩
    cases hb with
    | named => cases hs with | number h => cases h

theorem ValueSafe.noBitName {v : Value T} (h : ValueSafe v) : NoBitName v := by
  induction h with
  | bool => exact .prim
  | char => exact .prim
  | string => exact .prim
  | @number v n h =>
    obtain ⟨d, c⟩ := v
    cases d with
    | primitive p => exact .prim
    | _ => simp [Value.number?] at h
  | bits => exact .bits
  | named first _ ih => exact .named first ih
  | unnamed _ ih => exact .unnamed ih

/-! ### A format without characters -/

theorem exists_forall₂ {A B : Type} {P : A → B → Prop} : ∀ {xs : List A}, (∀ x ∈ xs, ∃ y, P x y) → ∃ ys, List.Forall₂ P xs ys := by
  intro xs
  induction xs with
  | nil => intro _; exact ⟨[], .nil⟩
  | cons x xs ih =>
    intro h
    obtain ⟨y, hy⟩ := h x (by simp)
    obtain ⟨ys, hys⟩ := ih (fun x hx => h x (by simp [hx]))
    exact ⟨y :: ys, .cons hy hys⟩

/-- A deserializer that answers the same to everything. -/
def constDer (r : Reply) : Der := .mk fun _ => r

theorem plays_const_str (s : Str) : Plays (constDer (.str s)) (.str s) := .str fun _ _ => rfl
theorem plays_const_num (n : Num) : Plays (constDer (.num n)) (.num n) := .num rfl fun _ _ => rfl
theorem plays_const_bool (b : Bool) : Plays (constDer (.bool b)) (.bool b) := .bool fun _ _ => rfl

theorem plays_const_seq {ds : List Der} {xs : List Ser} (h : List.Forall₂ (fun x d => Plays d x) xs ds) : Plays (constDer (.seq false ds)) (.seq xs) := by
  obtain ⟨h1, h2⟩ := pointwise_forall₂.2 h
  exact .seq (fun _ _ => rfl) h1.symm (fun i e x he hx => h2 i x e hx he)

theorem plays_const_tuple {ds : List Der} {xs : List Ser} (h : List.Forall₂ (fun x d => Plays d x) xs ds) : Plays (constDer (.seq false ds)) (.tuple xs) := by
  obtain ⟨h1, h2⟩ := pointwise_forall₂.2 h
  exact .tuple (fun _ _ => rfl) h1.symm (fun i e x he hx => h2 i x e hx he)

theorem plays_const_map {ds : List (Der × Der)} {xs : List (Ser × Ser)} (h : List.Forall₂ (fun x d => Plays d.1 x.1 ∧ Plays d.2 x.2) xs ds) : Plays (constDer (.map false ds)) (.map xs) := by
  obtain ⟨h1, h2⟩ := pointwise_forall₂.2 h
  exact .map (fun _ _ => rfl) h1.symm (fun i e x he hx => (h2 i x e hx he).1) (fun i e x he hx => (h2 i x e hx he).2)

theorem deValue_const (r : Reply) : deValue (constDer r) = (deDef r).map (fun d => .mk d ()) := by
  rw [constDer, deValue]
  cases deDef r <;> rfl

theorem deValues_some {ds : List Der} {ws : List (Value Unit)} : deValues ds = some ws → List.Forall₂ (fun d w => deValue d = some w) ds ws := by
  induction ds generalizing ws with
  | nil => intro h; cases h; exact .nil
  | cons d ds ih =>
    intro h
    rw [deValues] at h
    split at h
    · cases h
    · next v hv =>
      split at h
      · cases h
      · next vs hvs => cases h; exact .cons hv (ih hvs)

theorem deEntries_some {ds : List (Der × Der)} {ws : List (Str × Value Unit)} : deEntries ds = some ws → List.Forall₂ (fun d w => deString d.1 = some w.1 ∧ deValue d.2 = some w.2) ds ws := by
  induction ds generalizing ws with
  | nil => intro h; cases h; exact .nil
  | cons d ds ih =>
    intro h
    obtain ⟨k, d⟩ := d
    rw [deEntries] at h
    split at h
    · cases h
    · next key hk =>
      split at h
      · cases h
      · next v hv =>
        split at h
        · cases h
        · next vs hvs => cases h; exact .cons ⟨hk, hv⟩ (ih hvs)

/-- `d` plays the value back, and if this keeps the data then the value is one of those that all formats keep the data of. -/
def Spoils (v : Value T) (d : Der) : Prop := Plays d v.serialize ∧ ∀ w, deValue d = some w → SameData v w → FormatSafe v

theorem forall₂_comp {A B C : Type} {P : A → B → Prop} {Q : B → C → Prop} {as bs cs} (h : List.Forall₂ P as bs) (h' : List.Forall₂ Q bs cs) :
    List.Forall₂ (fun a c => ∃ b, P a b ∧ Q b c) as cs := by
  induction h generalizing cs with
  | nil => cases h'; exact .nil
  | cons h _ ih => cases h' with | cons h1 h2 => exact .cons ⟨_, h, h1⟩ (ih h2)

theorem exists_plays (p : Primitive) : ∃ d, Plays d p.serialize := by
  cases p with
  | bool b => exact ⟨_, plays_const_bool b⟩
  | char x => exact ⟨constDer (.str [x]), .charStr fun _ _ => rfl⟩
  | string s => exact ⟨_, plays_const_str s⟩
  | u128 n => exact ⟨_, plays_const_num _⟩
  | i128 n => exact ⟨_, plays_const_num _⟩
  | u256 b => exact ⟨constDer (.seq false (b.bytes.map fun x => constDer (.num (.ofU8 x)))), plays_const_tuple (by
      rw [List.forall₂_map_left_iff, List.forall₂_map_right_iff, List.forall₂_same]
      exact fun x _ => plays_const_num _)⟩
  | i256 b => exact ⟨constDer (.seq false (b.bytes.map fun x => constDer (.num (.ofU8 x)))), plays_const_tuple (by
      rw [List.forall₂_map_left_iff, List.forall₂_map_right_iff, List.forall₂_same]
      exact fun x _ => plays_const_num _)⟩

theorem exists_plays_bits (b : List Bool) : ∃ d, Plays d (serializeBits b) := by
  refine ⟨constDer (.map false [(constDer (.str bitIdent), constDer (.seq false (b.map fun x => constDer (.bool x))))]), plays_const_map (.cons ⟨plays_const_str _, plays_const_seq ?_⟩ .nil)⟩
  rw [List.forall₂_map_left_iff, List.forall₂_map_right_iff, List.forall₂_same]
  exact fun x _ => plays_const_bool _

theorem spoils_exists (v : Value T) : ∃ d, Spoils v d := by
  have named : ∀ (fs : List (Str × Value T)) (c : T), (∀ p ∈ fs, ∃ d, Spoils p.2 d) → ∃ d, Spoils (.mk (.composite (.named fs)) c) d := by
    intro fs c ih
    obtain ⟨ds, hds⟩ := exists_forall₂ (P := fun (p : Str × Value T) (d : Der × Der) => d.1 = constDer (.str p.1) ∧ Spoils p.2 d.2) (xs := fs)
      (fun p hp => by obtain ⟨d, hd⟩ := ih p hp; exact ⟨(_, d), rfl, hd⟩)
    refine ⟨constDer (.map false ds), ?_, ?_⟩
    · show Plays _ (Composite.named fs).serialize
      rw [Composite.serialize, serializeFields_eq]
      refine plays_const_map ?_
      rw [List.forall₂_map_left_iff]
      exact hds.imp (fun p d h => ⟨by rw [h.1]; exact plays_const_str _, h.2.1⟩)
    · intro w hw hs
      rw [deValue_const] at hw
      have key : ∀ gs, deEntries ds = some gs → SameData (.mk (.composite (.named fs)) c) (.mk (.composite (.named gs)) ()) → ∀ p ∈ fs, FormatSafe p.2 := by
        intro gs hg hs
        cases hs with
        | number h => cases h
        | named names sub =>
          intro p hp
          obtain ⟨i, hi, rfl⟩ := List.mem_iff_getElem.1 hp
          obtain ⟨hl, hf⟩ := pointwise_forall₂.2 (forall₂_comp hds (deEntries_some hg))
          have h1 := List.getElem?_eq_getElem hi
          have h2 := List.getElem?_eq_getElem (hl ▸ hi : i < gs.length)
          obtain ⟨e, he, -, hv⟩ := hf i _ _ h1 h2
          exact he.2.2 _ hv (sub i _ _ h1 h2)
      cases hds with
      | nil => exact .named (by simp) (by simp)
      | @cons p e fs ds hd hds' =>
        obtain ⟨k, x⟩ := e
        obtain ⟨hk, hx⟩ := hd
        have hk : k = constDer (.str p.1) := hk
        have hstr : deString k = some p.1 := by rw [hk]; exact deString_plays (plays_const_str _)
        rw [deDef, hstr] at hw
        simp only at hw
        split at hw
        · split at hw
          · cases hw
          · rw [if_neg (by simp)] at hw
            cases hw
            cases hs with | number h => cases h
        · next hne =>
          split at hw
          · cases hw
          · next y hy =>
            split at hw
            · cases hw
            · next es hes =>
              cases hw
              refine .named ?_ (key _ ?_ hs)
              · intro q hq; cases hq; exact hne
              · rw [deEntries, hstr, hy, hes]
  have unnamed : ∀ (vs : List (Value T)) (c : T), (∀ p ∈ vs, ∃ d, Spoils p d) → ∃ d, Spoils (.mk (.composite (.unnamed vs)) c) d := by
    intro vs c ih
    obtain ⟨ds, hds⟩ := exists_forall₂ ih
    refine ⟨constDer (.seq false ds), ?_, ?_⟩
    · show Plays _ (Composite.unnamed vs).serialize
      rw [Composite.serialize, serializeVals_eq]
      refine plays_const_seq ?_
      rw [List.forall₂_map_left_iff]
      exact hds.imp (fun p d h => h.1)
    · intro w hw hs
      rw [deValue_const, deDef] at hw
      split at hw
      case h_2 => cases hw
      next ws hws =>
      cases hw
      cases hs with
      | number h => cases h
      | unnamed len sub =>
        refine .unnamed fun p hp => ?_
        obtain ⟨i, hi, rfl⟩ := List.mem_iff_getElem.1 hp
        obtain ⟨hl, hf⟩ := pointwise_forall₂.2 (forall₂_comp hds (deValues_some hws))
        have h1 := List.getElem?_eq_getElem hi
        have h2 := List.getElem?_eq_getElem (hl ▸ hi : i < ws.length)
        obtain ⟨e, he, hv⟩ := hf i _ _ h1 h2
        exact he.2 _ hv (sub i _ _ h1 h2)
  have variant : ∀ n (f : Composite T) c, (∃ d, Plays d f.serialize) → ∃ d, Spoils (.mk (.variant (.mk n f)) c) d := by
    rintro n f c ⟨d, hd⟩
    refine ⟨constDer (.map false [(constDer (.str "name".toList), constDer (.str n)), (constDer (.str "values".toList), d)]), ?_, ?_⟩
    · show Plays _ (Variant.mk n f).serialize
      rw [Variant.serialize]
      exact plays_const_map (.cons ⟨plays_const_str _, plays_const_str _⟩ (.cons ⟨plays_const_str _, hd⟩ .nil))
    · intro w hw hs
      exfalso
      rw [deValue_const, deDef, deString_plays (plays_const_str _)] at hw
      simp only at hw
      rw [if_neg key_ne_bit] at hw
      split at hw
      · cases hw
      · split at hw
        · cases hw
        · cases hw
          cases hs with | number h => cases h
  induction v using Value.ind with
  | named fs c ih => exact named fs c ih
  | unnamed vs c ih => exact unnamed vs c ih
  | vnamed n fs c ih => obtain ⟨d, hd⟩ := named fs c ih; exact variant n _ c ⟨d, hd.1⟩
  | vunnamed n vs c ih => obtain ⟨d, hd⟩ := unnamed vs c ih; exact variant n _ c ⟨d, hd.1⟩
  | bits b c => obtain ⟨d, hd⟩ := exists_plays_bits b; exact ⟨d, hd, fun _ _ _ => .bits⟩
  | prim p c =>
    cases p with
    | bool b => obtain ⟨d, hd⟩ := exists_plays (.bool b); exact ⟨d, hd, fun _ _ _ => .bool⟩
    | string b => obtain ⟨d, hd⟩ := exists_plays (.string b); exact ⟨d, hd, fun _ _ _ => .string⟩
    | u128 b => obtain ⟨d, hd⟩ := exists_plays (.u128 b); exact ⟨d, hd, fun _ _ _ => .number rfl⟩
    | i128 b => obtain ⟨d, hd⟩ := exists_plays (.i128 b); exact ⟨d, hd, fun _ _ _ => .number rfl⟩
    | char x =>
      refine ⟨constDer (.str [x]), .charStr fun _ _ => rfl, fun w hw hs => ?_⟩
      rw [deValue_const, deDef] at hw
      cases hw
      cases hs with | number h => cases h
    | u256 b =>
      obtain ⟨d, hd⟩ := exists_plays (.u256 b)
      refine ⟨d, hd, fun w hw hs => ?_⟩
      obtain ⟨w', hw', hr⟩ := plays_restores (.mk (.primitive (.u256 b)) c) .prim d hd
      rw [hw'] at hw; cases hw
      cases hr with
      | number h => cases h
      | u256 => cases hs with | number h => cases h
    | i256 b =>
      obtain ⟨d, hd⟩ := exists_plays (.i256 b)
      refine ⟨d, hd, fun w hw hs => ?_⟩
      obtain ⟨w', hw', hr⟩ := plays_restores (.mk (.primitive (.i256 b)) c) .prim d hd
      rw [hw'] at hw; cases hw
      cases hr with
      | number h => cases h
      | i256 => cases hs with | number h => cases h

end SV
