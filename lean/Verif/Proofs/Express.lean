import Verif.Spec.Express
import Verif.Proofs.Trip
import Verif.Proofs.FormatText
import Verif.Proofs.FormatCtx
import Verif.Proofs.ParseSound
/-
Lemmas for C71.
-/
namespace SV

variable {T U : Type} {u : Uni}

/-! ### What texts express -/

/-- What a text of each category says of the values. -/
def CatSayable : Cat → Prop
  | .val v => Expressible v
  | .blt v => Expressible v
  | .comp c => ∀ v ∈ c.vals, Expressible v
  | .fields fs => ∀ p ∈ fs, Expressible p.2
  | .vals vs => ∀ v ∈ vs, Expressible v

theorem txt_sayable {k : Cat} {s : Str} (h : Txt u NoCustom k s) : CatSayable k := by
  induction h with
  | builtin _ ih => exact ih
  | custom h => exact h.elim
  | true_ => exact .prim trivial
  | false_ => exact .prim trivial
  | char => exact .prim trivial
  | string => exact .prim trivial
  | number h =>
    refine .prim ?_
    cases h with
    | plain => trivial
    | plus => trivial
    | minus _ hn => simp only [Sayable]; omega
  | bits => exact .bits
  | composite _ ih => exact .composite ih
  | variant _ _ _ ih => exact .variant ih
  | namedEmpty => simp [CatSayable, Composite.vals]
  | unnamedEmpty => simp [CatSayable, Composite.vals]
  | named _ _ _ ih =>
    simp only [CatSayable, Composite.vals, List.mem_map] at ih ⊢
    rintro v ⟨p, hp, rfl⟩
    exact ih p hp
  | unnamed _ _ _ ih => exact ih
  | field1 _ _ _ _ ih => simpa [CatSayable] using ih
  | fieldCons _ _ _ _ _ _ _ ih1 ih2 => exact List.forall_mem_cons.2 ⟨ih1, ih2⟩
  | val1 _ ih => simpa [CatSayable] using ih
  | valCons _ _ _ _ ih1 ih2 => exact List.forall_mem_cons.2 ⟨ih1, ih2⟩

theorem ws_none : Ws u [] := by simp [Ws]

theorem someVals_text {vs : List (Value Unit)} (h : ∀ v ∈ vs, ∃ s, Text u NoCustom v s) : ∃ s, Txt u NoCustom (.comp (.unnamed vs)) s := by
  cases vs with
  | nil => exact ⟨_, .unnamedEmpty ws_none⟩
  | cons v vs =>
    have : ∃ s, Txt u NoCustom (.vals (v :: vs)) s := by
      induction vs generalizing v with
      | nil => obtain ⟨s, hs⟩ := h v (by simp); exact ⟨s, .val1 hs⟩
      | cons w ws ih =>
        obtain ⟨s, hs⟩ := h v (by simp)
        obtain ⟨t, ht⟩ := ih w (fun x hx => h x (List.mem_cons_of_mem _ hx))
        exact ⟨_, .valCons hs ws_none ws_none ht⟩
    obtain ⟨s, hs⟩ := this
    exact ⟨_, .unnamed ws_none ws_none hs⟩

theorem someFields_text {fs : List (Str × Value Unit)} (h : ∀ p ∈ fs, ∃ s, Text u NoCustom p.2 s) : ∃ s, Txt u NoCustom (.comp (.named fs)) s := by
  cases fs with
  | nil => exact ⟨_, .namedEmpty ws_none⟩
  | cons v vs =>
    have : ∃ s, Txt u NoCustom (.fields (v :: vs)) s := by
      induction vs generalizing v with
      | nil =>
        obtain ⟨s, hs⟩ := h v (by simp)
        exact ⟨_, .field1 (.quoted (string_lit v.1)) ws_none ws_none hs⟩
      | cons w ws ih =>
        obtain ⟨s, hs⟩ := h v (by simp)
        obtain ⟨t, ht⟩ := ih w (fun x hx => h x (List.mem_cons_of_mem _ hx))
        exact ⟨_, .fieldCons (.quoted (string_lit v.1)) ws_none ws_none hs ws_none ws_none ht⟩
    obtain ⟨s, hs⟩ := this
    exact ⟨_, .named ws_none ws_none hs⟩

theorem expressible_text (v : Value Unit) : Expressible v → ∃ s, Text u NoCustom v s := by
  induction v using Value.ind with
  | named fs c ih =>
    intro h
    cases h with
    | composite h =>
      obtain ⟨s, hs⟩ := someFields_text (fun p hp => ih p hp (h p.2 (by simp only [Composite.vals, List.mem_map]; exact ⟨p, hp, rfl⟩)))
      exact ⟨s, .builtin (.composite hs)⟩
  | unnamed vs c ih =>
    intro h
    cases h with
    | composite h =>
      obtain ⟨s, hs⟩ := someVals_text (fun p hp => ih p hp (h p hp))
      exact ⟨s, .builtin (.composite hs)⟩
  | vnamed n fs c ih =>
    intro h
    cases h with
    | variant h =>
      obtain ⟨s, hs⟩ := someFields_text (fun p hp => ih p hp (h p.2 (by simp only [Composite.vals, List.mem_map]; exact ⟨p, hp, rfl⟩)))
      exact ⟨_, .builtin (.variant (.quoted (string_lit n)) ws_none hs)⟩
  | vunnamed n vs c ih =>
    intro h
    cases h with
    | variant h =>
      obtain ⟨s, hs⟩ := someVals_text (fun p hp => ih p hp (h p hp))
      exact ⟨_, .builtin (.variant (.quoted (string_lit n)) ws_none hs)⟩
  | bits b c => intro _; exact ⟨_, .builtin .bits⟩
  | prim p c =>
    intro h
    cases h with
    | prim h =>
      cases p with
      | bool b => cases b with
        | true => exact ⟨_, .builtin .true_⟩
        | false => exact ⟨_, .builtin .false_⟩
      | char c => exact ⟨_, .builtin (.char (char_lit c))⟩
      | string s => exact ⟨_, .builtin (.string (string_lit s))⟩
      | u128 n => exact ⟨_, .builtin (.number (.plain (dec_u128 n)))⟩
      | i128 n =>
        refine ⟨_, .builtin (.number (.minus (dec_i128 n) ?_))⟩
        simp only [Sayable] at h
        omega
      | u256 b => exact h.elim
      | i256 b => exact h.elim

theorem expressible_no256 {v : Value T} (h : Expressible v) : ¬ Has256 v := by
  intro h2
  induction h2 with
  | u256 => cases h with | prim h => exact h
  | i256 => cases h with | prim h => exact h
  | named hp _ ih => cases h with | composite h => exact ih (h _ (by simp only [Composite.vals, List.mem_map]; exact ⟨_, hp, rfl⟩))
  | unnamed hp _ ih => cases h with | composite h => exact ih (h _ hp)
  | vnamed hp _ ih => cases h with | variant h => exact ih (h _ (by simp only [Composite.vals, List.mem_map]; exact ⟨_, hp, rfl⟩))
  | vunnamed hp _ ih => cases h with | variant h => exact ih (h _ hp)

/-! ### Texts and data -/

theorem unsign_number {v : Value T} {w : Value U} {n : Int} (hv : v.number? = some n) (hw : w.number? = some n) :
    (v.mapPrim unsign).removeContext = (w.mapPrim unsign).removeContext := by
  have one : ∀ {X : Type} {v : Value X}, v.number? = some n → ∃ p, (v.mapPrim unsign).removeContext = .mk (.primitive p) () ∧
      (0 ≤ n → ∃ h, p = .u128 ⟨n.toNat, h⟩) ∧ (n < 0 → ∃ h1 h2, p = .i128 ⟨n, h1, h2⟩) := by
    intro X v hv
    obtain ⟨d, c⟩ := v
    cases d with
    | primitive p =>
      cases p with
      | u128 m =>
        simp only [Value.number?, Option.some.injEq] at hv
        subst hv
        refine ⟨.u128 m, rfl, fun _ => ⟨by simpa using m.lt, by simp⟩, fun h => by omega⟩
      | i128 m =>
        simp only [Value.number?, Option.some.injEq] at hv
        subst hv
        refine ⟨unsign (.i128 m), rfl, fun h => ?_, fun h => ?_⟩
        · exact ⟨by have := m.lt; omega, by simp [unsign, h]⟩
        · exact ⟨m.ge, m.lt, by rw [unsign, dif_neg (by omega)]⟩
      | _ => simp [Value.number?] at hv
    | _ => simp [Value.number?] at hv
  obtain ⟨p, hp, hp1, hp2⟩ := one hv
  obtain ⟨q, hq, hq1, hq2⟩ := one hw
  rw [hp, hq]
  rcases Int.lt_or_le n 0 with h | h
  · obtain ⟨_, _, rfl⟩ := hp2 h
    obtain ⟨_, _, rfl⟩ := hq2 h
    rfl
  · obtain ⟨_, rfl⟩ := hp1 h
    obtain ⟨_, rfl⟩ := hq1 h
    rfl

theorem list_ext_of {A : Type} {l m : List A} (hlen : l.length = m.length) (h : ∀ (i : Nat) (x y : A), l[i]? = some x → m[i]? = some y → x = y) : l = m := by
  apply List.ext_getElem hlen
  intro i h1 h2
  exact h i _ _ (List.getElem?_eq_getElem h1) (List.getElem?_eq_getElem h2)

theorem SameData.unsign {v : Value T} {w : Value U} (h : SameData v w) :
    (v.mapPrim unsign).removeContext = (w.mapPrim unsign).removeContext := by
  induction h with
  | number hv hw => exact unsign_number hv hw
  | prim => rfl
  | bits => rfl
  | @named fs gs c d names sub ih =>
    simp only [Value.mapPrim, ValueDef.mapPrim, Composite.mapPrim, mapPrimFields_map, removeContext_comp, Composite.bare, List.map_map, Function.comp_def]
    congr 3
    apply list_ext_of (by simpa using congrArg List.length names)
    intro i x y hx hy
    rw [List.getElem?_map, Option.map_eq_some_iff] at hx hy
    obtain ⟨p, hp, rfl⟩ := hx
    obtain ⟨q, hq, rfl⟩ := hy
    have hn : (fs.map (fun p => p.1))[i]? = (gs.map (fun p => p.1))[i]? := by rw [names]
    rw [List.getElem?_map, List.getElem?_map, hp, hq] at hn
    simp only [Option.map_some, Option.some.injEq] at hn
    rw [hn, ih i p q hp hq]
  | @unnamed vs ws c d len sub ih =>
    simp only [Value.mapPrim, ValueDef.mapPrim, Composite.mapPrim, mapPrimVals_map, removeContext_comp, Composite.bare, List.map_map, Function.comp_def]
    congr 3
    apply list_ext_of (by simpa using len)
    intro i x y hx hy
    rw [List.getElem?_map, Option.map_eq_some_iff] at hx hy
    obtain ⟨p, hp, rfl⟩ := hx
    obtain ⟨q, hq, rfl⟩ := hy
    exact ih i p q hp hq
  | @variant n f g c d _ ih =>
    simp only [Value.mapPrim, ValueDef.mapPrim, removeContext_comp, removeContext_variant, Value.variant] at ih ⊢
    simp only [Value.mk.injEq, ValueDef.composite.injEq] at ih
    rw [ih.1]

theorem SameData.symm {v : Value T} {w : Value U} (h : SameData v w) : SameData w v := by
  induction h with
  | number hv hw => exact .number hw hv
  | prim => exact .prim
  | bits => exact .bits
  | named names _ ih => exact .named names.symm fun i x y hx hy => ih i y x hy hx
  | unnamed len _ ih => exact .unnamed len.symm fun i x y hx hy => ih i y x hy hx
  | variant _ ih => exact .variant ih

theorem SameData.trans {X : Type} {v : Value T} {w : Value U} {x : Value X} (h : SameData v w) : SameData w x → SameData v x := by
  induction h generalizing x with
  | number hv hw =>
    intro h'
    cases h' with
    | number hv' hw' => rw [hw, Option.some.injEq] at hv'; subst hv'; exact .number hv hw'
    | @prim p c d =>
      refine .number hv ?_
      cases p <;> simp [Value.number?] at hw ⊢ <;> exact hw
    | bits => simp [Value.number?] at hw
    | named => simp [Value.number?] at hw
    | unnamed => simp [Value.number?] at hw
    | variant => simp [Value.number?] at hw
  | @prim p c d =>
    intro h'
    cases h' with
    | number hv' hw' =>
      refine .number ?_ hw'
      cases p <;> simp [Value.number?] at hv' ⊢ <;> exact hv'
    | prim => exact .prim
  | bits =>
    intro h'
    cases h' with
    | number hv' hw' => simp [Value.number?] at hv'
    | bits => exact .bits
  | @named fs gs c d names _ ih =>
    intro h'
    cases h' with
    | number hv' hw' => simp [Value.number?] at hv'
    | @named _ ks _ _ names' sub' =>
      refine .named (names.trans names') fun i x y hx hy => ?_
      have hl : gs.length = fs.length := by simpa using (congrArg List.length names).symm
      have hi : i < gs.length := by rw [hl]; exact (List.getElem?_eq_some_iff.1 hx).1
      exact ih i x gs[i] hx (List.getElem?_eq_getElem hi) (sub' i gs[i] y (List.getElem?_eq_getElem hi) hy)
  | @unnamed fs gs c d len _ ih =>
    intro h'
    cases h' with
    | number hv' hw' => simp [Value.number?] at hv'
    | @unnamed _ ks _ _ len' sub' =>
      refine .unnamed (len.trans len') fun i x y hx hy => ?_
      have hi : i < gs.length := by rw [← len]; exact (List.getElem?_eq_some_iff.1 hx).1
      exact ih i x gs[i] hx (List.getElem?_eq_getElem hi) (sub' i gs[i] y (List.getElem?_eq_getElem hi) hy)
  | variant _ ih =>
    intro h'
    cases h' with
    | number hv' hw' => simp [Value.number?] at hv'
    | variant h' => exact .variant (ih h')

/-- What is written does not depend on contexts. -/
theorem plain_removeContext (st : Style) (ib li : Str) (v : Value T) :
    (Builder.mk stringWriter st [] ib li none : Builder Unit Str).toString u v.removeContext = (Builder.mk stringWriter st [] ib li none : Builder T Str).toString u v := by
  unfold Builder.toString Builder.write
  have h : SameOut (Builder.mk stringWriter st [] ib li none : Builder T Str) (Builder.mk stringWriter st [] ib li none : Builder Unit Str) := ⟨rfl, rfl, rfl, rfl, rfl, rfl⟩
  have := fmt_mapContext (u := u) h (f := fun (s : Unit) (_ : T) => ((), s)) (by intro s v w; rfl) v ()
  have hv : v.removeContext = v.mapContextS (fun (s : Unit) (_ : T) => ((), s)) () := rfl
  rw [hv, this]

theorem SameData.text {v : Value T} {w : Value U} (h : SameData v w) (st : Style) (ib li : Str) :
    (Builder.mk stringWriter st [] ib li none : Builder T Str).toString u v = (Builder.mk stringWriter st [] ib li none : Builder U Str).toString u w := by
  rw [← toString_unsign u _ rfl v, ← toString_unsign u _ rfl w, ← plain_removeContext, ← plain_removeContext (v := w.mapPrim SV.unsign), h.unsign]

end SV
