import Verif.Spec.Value
/-
Induction principle for values, basic lemmas on `map_context`.
-/
namespace SV

variable {T U S : Type}

/-- Induction over values: to prove `P` of every value, prove it of a value from its direct
children. -/
theorem Value.ind {P : Value T → Prop}
    (named : ∀ fs c, (∀ p ∈ fs, P p.2) → P (.mk (.composite (.named fs)) c))
    (unnamed : ∀ vs c, (∀ v ∈ vs, P v) → P (.mk (.composite (.unnamed vs)) c))
    (vnamed : ∀ n fs c, (∀ p ∈ fs, P p.2) → P (.mk (.variant (.mk n (.named fs))) c))
    (vunnamed : ∀ n vs c, (∀ v ∈ vs, P v) → P (.mk (.variant (.mk n (.unnamed vs))) c))
    (bits : ∀ b c, P (.mk (.bitSequence b) c))
    (prim : ∀ p c, P (.mk (.primitive p) c)) : ∀ v, P v := by
  intro v
  refine Value.rec (motive_1 := P) (motive_2 := fun d => ∀ c, P (.mk d c))
    (motive_3 := fun v => ∀ c, P (.mk (.variant v) c))
    (motive_4 := fun cm => (∀ c, P (.mk (.composite cm) c)) ∧ (∀ n c, P (.mk (.variant (.mk n cm)) c)))
    (motive_5 := fun fs => ∀ p ∈ fs, P p.2) (motive_6 := fun vs => ∀ v ∈ vs, P v)
    (motive_7 := fun p => P p.2) ?_ ?_ ?_ ?_ ?_ ?_ ?_ ?_ ?_ ?_ ?_ ?_ ?_ v
  · intro d c h; exact h c
  · intro cm h; exact h.1
  · intro v h; exact h
  · exact bits
  · exact prim
  · intro n cm h; exact h.2 n
  · intro fs h; exact ⟨fun c => named fs c h, fun n c => vnamed n fs c h⟩
  · intro vs h; exact ⟨fun c => unnamed vs c h, fun n c => vunnamed n vs c h⟩
  · intro p h; cases h
  · intro hd tl h1 h2 p hp
    cases hp with
    | head => exact h1
    | tail _ h => exact h2 p h
  · intro p h; cases h
  · intro hd tl h1 h2 p hp
    cases hp with
    | head => exact h1
    | tail _ h => exact h2 p h
  · intro a b h; exact h

@[simp] theorem mapFieldsS_eq (f : S → T → U × S) (fs : List (Str × Value T)) (s : S) :
    mapFieldsS f fs s = fs.map (fun p => (p.1, p.2.mapContextS f s)) := by
  induction fs with
  | nil => simp [mapFieldsS]
  | cons p r ih => cases p; simp [mapFieldsS, ih]

@[simp] theorem mapValsS_eq (f : S → T → U × S) (vs : List (Value T)) (s : S) :
    mapValsS f vs s = vs.map (fun p => p.mapContextS f s) := by
  induction vs with
  | nil => simp [mapValsS]
  | cons p r ih => simp [mapValsS, ih]

@[simp] theorem mapContextS_context (f : S → T → U × S) (v : Value T) (s : S) :
    (v.mapContextS f s).context = (f s v.context).1 := by
  cases v; simp [Value.mapContextS, Value.context]

/-- `map_context` on each kind of node, in terms of `List.map`. -/
@[simp] theorem mapContextS_named (f : S → T → U × S) (fs c s) :
    (Value.mk (.composite (.named fs)) c : Value T).mapContextS f s =
      .mk (.composite (.named (fs.map (fun p => (p.1, p.2.mapContextS f (f s c).2))))) (f s c).1 := by
  simp [Value.mapContextS, ValueDef.mapContextS, Composite.mapContextS]
@[simp] theorem mapContextS_unnamed (f : S → T → U × S) (vs c s) :
    (Value.mk (.composite (.unnamed vs)) c : Value T).mapContextS f s =
      .mk (.composite (.unnamed (vs.map (fun p => p.mapContextS f (f s c).2)))) (f s c).1 := by
  simp [Value.mapContextS, ValueDef.mapContextS, Composite.mapContextS]
@[simp] theorem mapContextS_vnamed (f : S → T → U × S) (n fs c s) :
    (Value.mk (.variant (.mk n (.named fs))) c : Value T).mapContextS f s =
      .mk (.variant (.mk n (.named (fs.map (fun p => (p.1, p.2.mapContextS f (f s c).2)))))) (f s c).1 := by
  simp [Value.mapContextS, ValueDef.mapContextS, Variant.mapContextS, Composite.mapContextS]
@[simp] theorem mapContextS_vunnamed (f : S → T → U × S) (n vs c s) :
    (Value.mk (.variant (.mk n (.unnamed vs))) c : Value T).mapContextS f s =
      .mk (.variant (.mk n (.unnamed (vs.map (fun p => p.mapContextS f (f s c).2))))) (f s c).1 := by
  simp [Value.mapContextS, ValueDef.mapContextS, Variant.mapContextS, Composite.mapContextS]
@[simp] theorem mapContextS_bits (f : S → T → U × S) (b c s) :
    (Value.mk (.bitSequence b) c : Value T).mapContextS f s = .mk (.bitSequence b) (f s c).1 := by
  simp [Value.mapContextS, ValueDef.mapContextS]
@[simp] theorem mapContextS_prim (f : S → T → U × S) (p c s) :
    (Value.mk (.primitive p) c : Value T).mapContextS f s = .mk (.primitive p) (f s c).1 := by
  simp [Value.mapContextS, ValueDef.mapContextS]

@[simp] theorem mapContext_named (f : T → U) (fs c) :
    (Value.mk (.composite (.named fs)) c : Value T).mapContext f =
      .mk (.composite (.named (fs.map (fun p => (p.1, p.2.mapContext f))))) (f c) := by
  simp [Value.mapContext]
@[simp] theorem mapContext_unnamed (f : T → U) (vs c) :
    (Value.mk (.composite (.unnamed vs)) c : Value T).mapContext f =
      .mk (.composite (.unnamed (vs.map (fun p => p.mapContext f)))) (f c) := by
  simp [Value.mapContext]
@[simp] theorem mapContext_vnamed (f : T → U) (n fs c) :
    (Value.mk (.variant (.mk n (.named fs))) c : Value T).mapContext f =
      .mk (.variant (.mk n (.named (fs.map (fun p => (p.1, p.2.mapContext f)))))) (f c) := by
  simp [Value.mapContext]
@[simp] theorem mapContext_vunnamed (f : T → U) (n vs c) :
    (Value.mk (.variant (.mk n (.unnamed vs))) c : Value T).mapContext f =
      .mk (.variant (.mk n (.unnamed (vs.map (fun p => p.mapContext f))))) (f c) := by
  simp [Value.mapContext]
@[simp] theorem mapContext_bits (f : T → U) (b c) :
    (Value.mk (.bitSequence b) c : Value T).mapContext f = .mk (.bitSequence b) (f c) := by
  simp [Value.mapContext]
@[simp] theorem mapContext_prim (f : T → U) (p c) :
    (Value.mk (.primitive p) c : Value T).mapContext f = .mk (.primitive p) (f c) := by
  simp [Value.mapContext]

theorem children_mapContextS (f : S → T → U × S) (v : Value T) (s : S) :
    (v.mapContextS f s).children = v.children.map (fun w => w.mapContextS f (f s v.context).2) := by
  induction v using Value.ind <;>
    simp [Value.children, Value.context, Function.comp_def]

theorem ContextsTo.map (f : S → T → U × S) {v : Value T} {p cs} (h : ContextsTo v p cs) :
    ∀ s, ContextsTo (v.mapContextS f s) p (runClosure f s cs) := by
  induction h with
  | here v => intro s; simpa [runClosure] using ContextsTo.here (v.mapContextS f s)
  | @step v w i p cs child rest ih =>
    intro s
    have := ContextsTo.step (v := v.mapContextS f s) (i := i) (w := w.mapContextS f (f s v.context).2)
      (by rw [children_mapContextS]; simp [child]) (ih _)
    simpa [runClosure] using this

theorem ContextsTo.unmap (f : S → T → U × S) {p} : ∀ {v : Value T} {s} {ds : List U},
    ContextsTo (v.mapContextS f s) p ds → ∃ cs, ContextsTo v p cs ∧ ds = runClosure f s cs := by
  induction p with
  | nil =>
    intro v s ds h
    cases h
    exact ⟨_, .here v, by simp [runClosure]⟩
  | cons i p ih =>
    intro v s ds h
    cases h with
    | step child rest =>
      rw [children_mapContextS, List.getElem?_map] at child
      cases hc : v.children[i]? with
      | none => simp [hc] at child
      | some w =>
        simp [hc] at child
        subst child
        obtain ⟨cs, h1, h2⟩ := ih rest
        exact ⟨_, .step hc h1, by simp [runClosure, h2]⟩

theorem SameShape.map (f : S → T → U × S) (v : Value T) : ∀ s, SameShape v (v.mapContextS f s) := by
  induction v using Value.ind with
  | named fs c ih =>
    intro s; simp only [mapContextS_named]
    refine .named (by simp) ?_
    intro i x y hx hy
    simp [hx] at hy; subst hy
    exact ih x (List.mem_of_getElem? hx) _
  | unnamed fs c ih =>
    intro s; simp only [mapContextS_unnamed]
    refine .unnamed (by simp) ?_
    intro i x y hx hy
    simp [hx] at hy; subst hy
    exact ih x (List.mem_of_getElem? hx) _
  | vnamed n fs c ih =>
    intro s; simp only [mapContextS_vnamed]
    refine .variantNamed (by simp) ?_
    intro i x y hx hy
    simp [hx] at hy; subst hy
    exact ih x (List.mem_of_getElem? hx) _
  | vunnamed n fs c ih =>
    intro s; simp only [mapContextS_vunnamed]
    refine .variantUnnamed (by simp) ?_
    intro i x y hx hy
    simp [hx] at hy; subst hy
    exact ih x (List.mem_of_getElem? hx) _
  | bits b c => intro s; simp only [mapContextS_bits]; exact .bits
  | prim p c => intro s; simp only [mapContextS_prim]; exact .prim

theorem names_ext {fs gs : List (Str × Value T)} (h1 : fs.map (fun p => p.1) = gs.map (fun p => p.1))
    (h2 : ∀ (i : Nat) (x y : Str × Value T), fs[i]? = some x → gs[i]? = some y → x.2 = y.2) : fs = gs := by
  apply List.ext_getElem?
  intro i
  have h := congrArg (·[i]?) h1
  simp at h
  cases hx : fs[i]? with
  | none => cases hy : gs[i]? with
    | none => rfl
    | some y => simp [hx, hy] at h
  | some x => cases hy : gs[i]? with
    | none => simp [hx, hy] at h
    | some y =>
      simp [hx, hy] at h
      have := h2 i x y hx hy
      cases x; cases y; simp_all

theorem vals_ext {fs gs : List T} (h1 : fs.length = gs.length)
    (h2 : ∀ (i : Nat) (x y : T), fs[i]? = some x → gs[i]? = some y → x = y) : fs = gs := by
  apply List.ext_getElem h1
  intro i hi hj
  exact h2 i _ _ (List.getElem?_eq_getElem hi) (List.getElem?_eq_getElem hj)

theorem ContextsTo.cons_inv {v : Value T} {i p cs} (h : ContextsTo v (i :: p) cs) :
    ∃ w cs', v.children[i]? = some w ∧ ContextsTo w p cs' ∧ cs = v.context :: cs' := by
  cases h with
  | step child rest => exact ⟨_, _, child, rest, rfl⟩

/-- A value is determined by its shape and the contexts at all its paths. -/
theorem SameShape.ext {v w : Value T} (h : SameShape v w)
    (hc : ∀ p cs, ContextsTo v p cs → ContextsTo w p cs) : v = w := by
  have root : ∀ {v w : Value T}, (∀ p cs, ContextsTo v p cs → ContextsTo w p cs) →
      v.context = w.context := by
    intro v w hc
    have := hc _ _ (.here v)
    generalize hv : [v.context] = l at this
    cases this
    simp_all
  have sub : ∀ {v w : Value T}, (∀ p cs, ContextsTo v p cs → ContextsTo w p cs) → ∀ (i : Nat) (x y : Value T),
      v.children[i]? = some x → w.children[i]? = some y →
      (∀ p cs, ContextsTo x p cs → ContextsTo y p cs) := by
    intro v w hc i x y hx hy p cs hp
    have := hc _ _ (.step hx hp)
    obtain ⟨w', cs', h1, h2, h3⟩ := this.cons_inv
    rw [hy] at h1; cases h1
    simp at h3; rw [h3.2]; exact h2
  induction h with
  | named names _ ih =>
    have := root hc; simp [Value.context] at this; subst this
    rw [names_ext names]
    intro i x y hx hy
    exact ih i x y hx hy (sub hc i _ _ (by simp [Value.children, hx]) (by simp [Value.children, hy]))
  | unnamed len _ ih =>
    have := root hc; simp [Value.context] at this; subst this
    rw [vals_ext len]
    intro i x y hx hy
    exact ih i x y hx hy (sub hc i _ _ (by simp [Value.children, hx]) (by simp [Value.children, hy]))
  | variantNamed names _ ih =>
    have := root hc; simp [Value.context] at this; subst this
    rw [names_ext names]
    intro i x y hx hy
    exact ih i x y hx hy (sub hc i _ _ (by simp [Value.children, hx]) (by simp [Value.children, hy]))
  | variantUnnamed len _ ih =>
    have := root hc; simp [Value.context] at this; subst this
    rw [vals_ext len]
    intro i x y hx hy
    exact ih i x y hx hy (sub hc i _ _ (by simp [Value.children, hx]) (by simp [Value.children, hy]))
  | bits => have := root hc; simp [Value.context] at this; subst this; rfl
  | prim => have := root hc; simp [Value.context] at this; subst this; rfl

theorem SameShape.symm {v : Value T} {w : Value U} (h : SameShape v w) : SameShape w v := by
  induction h with
  | named n _ ih => exact .named n.symm (fun i x y hx hy => ih i y x hy hx)
  | unnamed n _ ih => exact .unnamed n.symm (fun i x y hx hy => ih i y x hy hx)
  | variantNamed n _ ih => exact .variantNamed n.symm (fun i x y hx hy => ih i y x hy hx)
  | variantUnnamed n _ ih => exact .variantUnnamed n.symm (fun i x y hx hy => ih i y x hy hx)
  | bits => exact .bits
  | prim => exact .prim

theorem names_len {fs : List (Str × T)} {gs : List (Str × U)}
    (h : fs.map (fun p => p.1) = gs.map (fun p => p.1)) : fs.length = gs.length := by
  have := congrArg List.length h; simpa using this

theorem SameShape.trans {R : Type} {v : Value T} {w : Value U} (h : SameShape v w) :
    ∀ {z : Value R}, SameShape w z → SameShape v z := by
  have key : ∀ {A B C : Type} {fs : List A} {gs : List B} {hs : List C} (_ : fs.length = gs.length)
      {i : Nat} {x : A} {z : C}, fs[i]? = some x → hs[i]? = some z → ∃ y, gs[i]? = some y := by
    intro A B C fs gs hs hl i x z hx _
    have : i < gs.length := by
      have := (List.getElem?_eq_some_iff.1 hx).1; omega
    exact ⟨_, List.getElem?_eq_getElem this⟩
  induction h with
  | named n _ ih =>
    intro z h2; cases h2 with
    | named n' s' =>
      refine .named (n.trans n') ?_
      intro i x z hx hz
      obtain ⟨y, hy⟩ := key (names_len n) hx hz
      exact ih i x y hx hy (s' i y z hy hz)
  | unnamed n _ ih =>
    intro z h2; cases h2 with
    | unnamed n' s' =>
      refine .unnamed (n.trans n') ?_
      intro i x z hx hz
      obtain ⟨y, hy⟩ := key n hx hz
      exact ih i x y hx hy (s' i y z hy hz)
  | variantNamed n _ ih =>
    intro z h2; cases h2 with
    | variantNamed n' s' =>
      refine .variantNamed (n.trans n') ?_
      intro i x z hx hz
      obtain ⟨y, hy⟩ := key (names_len n) hx hz
      exact ih i x y hx hy (s' i y z hy hz)
  | variantUnnamed n _ ih =>
    intro z h2; cases h2 with
    | variantUnnamed n' s' =>
      refine .variantUnnamed (n.trans n') ?_
      intro i x z hx hz
      obtain ⟨y, hy⟩ := key n hx hz
      exact ih i x y hx hy (s' i y z hy hz)
  | bits => intro z h2; cases h2; exact .bits
  | prim => intro z h2; cases h2; exact .prim

theorem SameShape.eq_of_unit {v w : Value Unit} (h : SameShape v w) : v = w := by
  induction h with
  | named n _ ih => rw [names_ext n ih]
  | unnamed n _ ih => rw [vals_ext n ih]
  | variantNamed n _ ih => rw [names_ext n ih]
  | variantUnnamed n _ ih => rw [vals_ext n ih]
  | bits => rfl
  | prim => rfl

theorem findNamed_iff {s : Str} {fs : List (Str × Value T)} {w : Value T} :
    findNamed s fs = some w ↔
      ∃ pre post, fs = pre ++ (s, w) :: post ∧ ∀ p ∈ pre, p.1 ≠ s := by
  induction fs with
  | nil => simp [findNamed]
  | cons p r ih =>
    obtain ⟨k, v⟩ := p
    unfold findNamed
    split
    · next h =>
      subst h
      constructor
      · intro h; cases h; exact ⟨[], r, rfl, by simp⟩
      · rintro ⟨pre, post, h1, h2⟩
        cases pre with
        | nil => simp at h1; simp [h1.1]
        | cons q pre =>
          simp at h1
          have := h2 q (by simp)
          simp [← h1.1] at this
    · next h =>
      rw [ih]
      constructor
      · rintro ⟨pre, post, rfl, h2⟩
        refine ⟨(k, v) :: pre, post, rfl, ?_⟩
        intro p hp
        cases hp with
        | head => exact fun e => h e.symm
        | tail _ hp => exact h2 p hp
      · rintro ⟨pre, post, h1, h2⟩
        cases pre with
        | nil => simp at h1; exact absurd h1.1.1.symm h
        | cons q pre =>
          simp at h1
          exact ⟨pre, post, h1.2, fun p hp => h2 p (List.mem_cons_of_mem _ hp)⟩

end SV
