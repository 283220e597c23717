import Verif.Proofs.SerdeApi
/-
Proofs about typed data: structs by name, and the round trip.
-/
namespace SV

variable {T : Type}

/-! ### Anything can be ignored -/

theorem ignoredL_iff (ds : List Der) : deIgnoredL ds = true ↔ ∀ d ∈ ds, deIgnored d = true := by
  induction ds with
  | nil => simp [deIgnoredL]
  | cons d ds ih => simp [deIgnoredL, ih]

theorem ignoredM_iff (ds : List (Der × Der)) : deIgnoredM ds = true ↔ ∀ d ∈ ds, deIgnored d.1 = true ∧ deIgnored d.2 = true := by
  induction ds with
  | nil => simp [deIgnoredM]
  | cons d ds ih => cases d; simp [deIgnoredM, ih, and_assoc]

theorem ignored_fields {fs : List (Str × Value T)} (h : ∀ p ∈ fs, deIgnored p.2.der = true) : deIgnoredM (fieldDers fs) = true := by
  rw [fieldDers_eq, ignoredM_iff]
  intro d hd
  obtain ⟨p, hp, rfl⟩ := List.mem_map.1 hd
  exact ⟨rfl, h p hp⟩

theorem ignored_vals {vs : List (Value T)} (h : ∀ p ∈ vs, deIgnored p.der = true) : deIgnoredL (valDers vs) = true := by
  rw [valDers_eq, ignoredL_iff]
  intro d hd
  obtain ⟨p, hp, rfl⟩ := List.mem_map.1 hd
  exact h p hp

/-- Any value can be read and ignored. -/
theorem ignored_der (v : Value T) : deIgnored v.der = true := by
  induction v using Value.ind with
  | named fs c ih => simp only [Value.der, deIgnored, ValueDef.ask, Composite.ask, deIgnoredR]; exact ignored_fields ih
  | unnamed fs c ih => simp only [Value.der, deIgnored, ValueDef.ask, Composite.ask, deIgnoredR]; exact ignored_vals ih
  | vnamed n fs c ih =>
    simp only [Value.der, deIgnored, ValueDef.ask, Variant.ask, deIgnoredR, Bool.and_eq_true, Composite.ask]
    exact ⟨rfl, ignored_fields ih⟩
  | vunnamed n fs c ih =>
    simp only [Value.der, deIgnored, ValueDef.ask, Variant.ask, deIgnoredR, Bool.and_eq_true, Composite.ask]
    exact ⟨rfl, ignored_vals ih⟩
  | bits b c =>
    simp only [Value.der, deIgnored, ValueDef.ask, bitsReply, deIgnoredR, ignoredM_iff]
    intro d hd
    rw [List.mem_singleton] at hd
    subst hd
    refine ⟨rfl, ?_⟩
    simp only [boolsDer, deIgnored, deIgnoredR, ignoredL_iff]
    intro d hd
    obtain ⟨p, hp, rfl⟩ := List.mem_map.1 hd
    rfl
  | prim p c => cases p <;> rfl

/-! ### Structs by name -/

theorem identKeys_fields (fs : List (Str × Value T)) : identKeys (fieldDers fs) = some (fs.map (fun p => (p.1, p.2.der))) := by
  rw [fieldDers_eq]
  induction fs with
  | nil => rfl
  | cons p fs ih => simp only [List.map_cons, identKeys, ih]; rfl

/-- Reading named fields as a struct is a matter of the fields. -/
theorem structOf_fields (names : List Str) (inOrder : Bool → List Der → Option (List Dat)) (byName : List (Str × Der) → Option (List Dat)) (fs : List (Str × Value T)) :
    structOf names inOrder byName (.map false (fieldDers fs)) = byName (fs.map (fun p => (p.1, p.2.der))) := by
  rw [structOf, identKeys_fields]
  simp only
  rw [if_pos]
  rw [List.all_eq_true]
  intro x hx
  obtain ⟨p, hp, rfl⟩ := List.mem_map.1 hx
  simp [ignored_der]

theorem filter_nil_iff {A : Type} {n : Str} {es : List (Str × A)} : es.filter (fun p => decide (p.1 = n)) = [] ↔ n ∉ es.map (fun p => p.1) := by
  simp only [List.filter_eq_nil_iff, decide_eq_true_eq, List.mem_map, not_exists, not_and]

theorem filter_single_iff {A : Type} {n : Str} {es : List (Str × A)} {m : Str} {d : A} : es.filter (fun p => decide (p.1 = n)) = [(m, d)] ↔
    m = n ∧ ∃ pre post, es = pre ++ (n, d) :: post ∧ n ∉ (pre ++ post).map (fun p => p.1) := by
  induction es with
  | nil => simp
  | cons e es ih =>
    obtain ⟨k, x⟩ := e
    by_cases hk : k = n
    · subst hk
      rw [List.filter_cons_of_pos (by simp)]
      constructor
      · intro h
        rw [List.cons.injEq, Prod.mk.injEq] at h
        obtain ⟨⟨rfl, rfl⟩, h2⟩ := h
        exact ⟨rfl, [], es, rfl, filter_nil_iff.1 h2⟩
      · rintro ⟨rfl, pre, post, h1, h2⟩
        cases pre with
        | nil => cases h1; rw [filter_nil_iff.2 (by simpa using h2)]
        | cons p pre => cases h1; exact absurd (by simp) h2
    · rw [List.filter_cons_of_neg (by simpa using hk), ih]
      constructor
      · rintro ⟨rfl, pre, post, rfl, h2⟩
        refine ⟨rfl, (k, x) :: pre, post, rfl, ?_⟩
        simp only [List.cons_append, List.map_cons, List.mem_cons, not_or]
        exact ⟨fun h => hk h.symm, h2⟩
      · rintro ⟨rfl, pre, post, h1, h2⟩
        cases pre with
        | nil => cases h1; exact absurd rfl hk
        | cons p pre =>
          cases h1
          refine ⟨rfl, pre, post, rfl, fun h => h2 ?_⟩
          simp only [List.cons_append, List.map_cons, List.mem_cons]
          exact .inr h

theorem pick_iff {n : Str} {es : List (Str × Der)} {r : Option Der} : pickField n es = some r ↔
    (r = none ∧ n ∉ es.map (fun p => p.1)) ∨ (∃ d pre post, r = some d ∧ es = pre ++ (n, d) :: post ∧ n ∉ (pre ++ post).map (fun p => p.1)) := by
  unfold pickField
  constructor
  · intro h
    split at h
    · next h1 => cases h; exact .inl ⟨rfl, filter_nil_iff.1 h1⟩
    · next m d h1 =>
      cases h
      obtain ⟨-, pre, post, h2, h3⟩ := filter_single_iff.1 h1
      exact .inr ⟨d, pre, post, rfl, h2, h3⟩
    · cases h
  · rintro (⟨rfl, h⟩ | ⟨d, pre, post, rfl, h1, h2⟩)
    · rw [filter_nil_iff.2 h]
    · rw [filter_single_iff.2 ⟨rfl, pre, post, h1, h2⟩]

theorem missing_iff {t : Ty} {d : Dat} : t.missing = some d ↔ (∃ u, t = .option u) ∧ d = .none := by
  cases t <;> simp [Ty.missing, eq_comm]

/-- One field. -/
theorem field_iff {ps : List (Str × Value T)} {n : Str} {t : Ty} {d : Dat} :
    (∃ e, pickField n (ps.map (fun p => (p.1, p.2.der))) = some e ∧ (match e with | some x => t.de x | none => t.missing) = some d) ↔ FieldIs ps n t d := by
  constructor
  · rintro ⟨e, h1, h2⟩
    rw [pick_iff] at h1
    rcases h1 with ⟨rfl, h1⟩ | ⟨x, pre, post, rfl, h1, h3⟩
    · obtain ⟨⟨u, rfl⟩, rfl⟩ := missing_iff.1 h2
      exact .absent (by simpa [Function.comp_def] using h1)
    · rw [List.map_eq_append_iff] at h1
      obtain ⟨a, b, rfl, rfl, h4⟩ := h1
      rw [List.map_eq_cons_iff] at h4
      obtain ⟨p, c, rfl, h5, rfl⟩ := h4
      obtain ⟨m, v⟩ := p
      cases h5
      exact .present rfl (by simpa [Function.comp_def] using h3) h2
  · intro h
    cases h with
    | @present _ _ v pre post split once h =>
      subst split
      refine ⟨some v.der, ?_, h⟩
      rw [pick_iff]
      exact .inr ⟨_, pre.map (fun p => (p.1, p.2.der)), post.map (fun p => (p.1, p.2.der)), rfl, by simp, by simpa [Function.comp_def] using once⟩
    | absent h =>
      refine ⟨none, ?_, rfl⟩
      rw [pick_iff]
      exact .inl ⟨rfl, by simpa [Function.comp_def] using h⟩

theorem deFields_iff {fs : List (Str × Ty)} {ps : List (Str × Value T)} {ds : List Dat} :
    Ty.deFields fs (ps.map (fun p => (p.1, p.2.der))) = some ds ↔ List.Forall₂ (fun f d => FieldIs ps f.1 f.2 d) fs ds := by
  induction fs generalizing ds with
  | nil => cases ds <;> simp [Ty.deFields]
  | cons f fs ih =>
    obtain ⟨n, t⟩ := f
    rw [Ty.deFields]
    constructor
    · intro h
      split at h
      · cases h
      · next e he =>
        split at h
        · cases h
        · next x hx =>
          split at h
          · cases h
          · next xs hxs =>
            cases h
            exact .cons (field_iff.1 ⟨e, he, hx⟩) (ih.1 hxs)
    · intro h
      cases h with
      | cons h1 h2 =>
        obtain ⟨e, he, hx⟩ := field_iff.2 h1
        simp only [he, ih.2 h2]
        cases e with
        | none => simp only at hx ⊢; rw [hx]
        | some x => simp only at hx ⊢; rw [hx]

theorem deList_iff {ts : List Ty} {closed : Bool} {es : List Der} {ds : List Dat} :
    Ty.deList ts closed es = some ds ↔ ∃ pre post, es = pre ++ post ∧ (closed = true → post = []) ∧ List.Forall₂ (fun (p : Ty × Der) d => p.1.de p.2 = some d) (ts.zip pre) ds ∧ pre.length = ts.length := by
  induction ts generalizing es ds with
  | nil =>
    rw [Ty.deList]
    cases closed with
    | false => cases ds <;> simp
    | true =>
      cases es with
      | nil => cases ds <;> simp
      | cons e es => cases ds <;> simp
  | cons t ts ih =>
    cases es with
    | nil =>
      rw [Ty.deList]
      constructor
      · intro h; cases h
      · rintro ⟨pre, post, h1, h2, h3, h4⟩
        cases pre with
        | nil => simp at h4
        | cons => cases h1
    | cons e es =>
      rw [Ty.deList]
      constructor
      · intro h
        split at h
        · cases h
        · next x hx =>
          split at h
          · cases h
          · next xs hxs =>
            cases h
            obtain ⟨pre, post, rfl, h2, h3, h4⟩ := ih.1 hxs
            exact ⟨e :: pre, post, rfl, h2, .cons hx h3, by simp [h4]⟩
      · rintro ⟨pre, post, h1, h2, h3, h4⟩
        cases pre with
        | nil => simp at h4
        | cons p pre =>
          rw [List.cons_append, List.cons.injEq] at h1
          obtain ⟨rfl, rfl⟩ := h1
          cases h3 with
          | cons h5 h6 =>
            have := ih.2 ⟨pre, post, rfl, h2, h6, by simpa using h4⟩
            replace h5 : t.de e = some _ := h5
            rw [h5]
            simp only [this]

theorem deFieldList_eq (fs : List (Str × Ty)) (closed : Bool) (es : List Der) : Ty.deFieldList fs closed es = Ty.deList (fs.map (fun f => f.2)) closed es := by
  induction fs generalizing es with
  | nil => simp only [List.map_nil, Ty.deFieldList, Ty.deList]
  | cons f fs ih =>
    obtain ⟨n, t⟩ := f
    cases es with
    | nil => simp only [List.map_cons, Ty.deFieldList, Ty.deList]
    | cons e es => simp only [List.map_cons, Ty.deFieldList, Ty.deList, ih]

/-! ### Round trip -/

theorem sers_iff {ts : List Ty} {ds : List Dat} {ss : List Ser} :
    Ty.sers ts ds = some ss ↔ List.Forall₂ (fun (p : Ty × Dat) s => p.1.ser p.2 = some s) (ts.zip ds) ss ∧ ts.length = ds.length := by
  induction ts generalizing ds ss with
  | nil => cases ds <;> cases ss <;> simp [Ty.sers]
  | cons t ts ih =>
    cases ds with
    | nil => simp [Ty.sers]
    | cons d ds =>
      rw [Ty.sers]
      constructor
      · intro h
        split at h
        · next s ss' h1 h2 =>
          cases h
          obtain ⟨h3, h4⟩ := ih.1 h2
          exact ⟨.cons h1 h3, by simp [h4]⟩
        · cases h
      · rintro ⟨h1, h2⟩
        cases h1 with
        | cons h3 h4 =>
          replace h3 : t.ser d = some _ := h3
          simp only [h3, ih.2 ⟨h4, by simpa using h2⟩]

/-- What the round trip says of one type. -/
def Comes (t : Ty) : Prop := ∀ d s, t.ser d = some s → ∃ v, s.toValue = .ok v ∧ t.de v.der = some d

theorem comes_all {t : Ty} (h : Comes t) : ∀ {ds : List Dat} {ss : List Ser}, serAll t.ser ds = some ss →
    ∃ vs, toValues ss = .ok vs ∧ allOf t.de (vs.map Value.der) = some ds := by
  intro ds
  induction ds with
  | nil => intro ss hs; cases hs; exact ⟨[], rfl, rfl⟩
  | cons d ds ih =>
    intro ss hs
    rw [serAll] at hs
    split at hs
    · next s ss' h1 h2 =>
      cases hs
      obtain ⟨v, hv, hd⟩ := h d s h1
      obtain ⟨vs, hvs, hds⟩ := ih h2
      refine ⟨v :: vs, ?_, ?_⟩
      · simp only [toValues, hv, hvs]; rfl
      · simp only [List.map_cons, allOf, hd, hds]
    · cases hs

theorem comes_list {ts : List Ty} (h : ∀ t ∈ ts, Comes t) : ∀ {ds : List Dat} {ss : List Ser}, Ty.sers ts ds = some ss →
    ∃ vs, toValues ss = .ok vs ∧ vs.length = ts.length ∧ ∀ closed, Ty.deList ts closed (vs.map Value.der) = some ds := by
  induction ts with
  | nil =>
    intro ds ss hs
    cases ds with
    | nil => cases hs; exact ⟨[], rfl, rfl, fun c => by simp [Ty.deList]⟩
    | cons => cases hs
  | cons t ts ih =>
    intro ds ss hs
    cases ds with
    | nil => cases hs
    | cons d ds =>
      rw [Ty.sers] at hs
      split at hs
      · next s ss' h1 h2 =>
        cases hs
        obtain ⟨v, hv, hd⟩ := h t (by simp) d s h1
        obtain ⟨vs, hvs, hl, hds⟩ := ih (fun u hu => h u (by simp [hu])) h2
        refine ⟨v :: vs, ?_, by simp [hl], fun c => ?_⟩
        · simp only [toValues, hv, hvs]; rfl
        · simp only [List.map_cons, Ty.deList, hd, hds]
      · cases hs

theorem comes_fields {fs : List (Str × Ty)} (h : ∀ f ∈ fs, Comes f.2) : ∀ {ds : List Dat} {ss : List (Str × Ser)}, Ty.serFields fs ds = some ss →
    ∃ gs, toFields ss = .ok gs ∧ gs.map (fun p => p.1) = fs.map (fun p => p.1) ∧ List.Forall₂ (fun (p : (Str × Ty) × (Str × Value Unit)) d => p.1.2.de p.2.2.der = some d) (fs.zip gs) ds := by
  induction fs with
  | nil =>
    intro ds ss hs
    cases ds with
    | nil => cases hs; exact ⟨[], rfl, rfl, .nil⟩
    | cons => cases hs
  | cons f fs ih =>
    obtain ⟨n, t⟩ := f
    intro ds ss hs
    cases ds with
    | nil => cases hs
    | cons d ds =>
      rw [Ty.serFields] at hs
      split at hs
      · next s ss' h1 h2 =>
        cases hs
        obtain ⟨v, hv, hd⟩ := h (n, t) (by simp) d s h1
        obtain ⟨vs, hvs, hl, hds⟩ := ih (fun u hu => h u (by simp [hu])) h2
        refine ⟨(n, v) :: vs, ?_, by simp [hl], .cons hd hds⟩
        simp only [toFields, hv, hvs]; rfl
      · cases hs

/-- Fields without repeated names are found. -/
theorem fields_found {fs : List (Str × Ty)} {gs : List (Str × Value T)} {ds : List Dat} (names : gs.map (fun p => p.1) = fs.map (fun p => p.1))
    (nodup : (fs.map (fun f => f.1)).Nodup) (h : List.Forall₂ (fun (p : (Str × Ty) × (Str × Value T)) d => p.1.2.de p.2.2.der = some d) (fs.zip gs) ds) :
    List.Forall₂ (fun f d => FieldIs gs f.1 f.2 d) fs ds := by
  suffices H : ∀ (pre : List (Str × Value T)) (fs : List (Str × Ty)) (rest : List (Str × Value T)) (ds : List Dat), gs = pre ++ rest → rest.map (fun p => p.1) = fs.map (fun p => p.1) →
      List.Forall₂ (fun (p : (Str × Ty) × (Str × Value T)) d => p.1.2.de p.2.2.der = some d) (fs.zip rest) ds → List.Forall₂ (fun f d => FieldIs gs f.1 f.2 d) fs ds from
    H [] fs gs ds rfl names h
  have hn : (gs.map (fun p => p.1)).Nodup := by rw [names]; exact nodup
  clear h names nodup
  intro pre fs
  induction fs generalizing pre with
  | nil => intro rest ds _ _ h; cases h; exact .nil
  | cons f fs ih =>
    intro rest ds hg hnm h
    cases rest with
    | nil => simp at hnm
    | cons g rest =>
      obtain ⟨n, t⟩ := f
      obtain ⟨m, v⟩ := g
      simp only [List.map_cons, List.cons.injEq] at hnm
      obtain ⟨rfl, hnm⟩ := hnm
      cases h with
      | cons h1 h2 =>
        refine .cons (.present hg ?_ h1) (ih (pre ++ [(m, v)]) rest _ (by simp [hg]) hnm h2)
        rw [hg] at hn
        simp only [List.map_append, List.map_cons, List.nodup_append, List.nodup_cons, List.mem_cons] at hn
        simp only [List.map_append, List.mem_append, not_or]
        refine ⟨fun hm => ?_, hn.2.1.1⟩
        exact hn.2.2 m hm m (.inl rfl) rfl

theorem insertMap_new {es : List (Str × Dat)} {k : Str} {d : Dat} (h : k ∉ es.map (fun p => p.1)) : insertMap es k d = es ++ [(k, d)] := by
  unfold insertMap; rw [if_neg h]

theorem comes_map {t : Ty} (h : Comes t) {b : Bool} : ∀ {es : List (Str × Dat)} {ss : List (Ser × Ser)}, serMap b t.ser es = some ss →
    ∃ gs, toEntries ss = .ok gs ∧ ∀ acc : List (Str × Dat), (∀ k ∈ es.map (fun p => p.1), k ∉ acc.map (fun p => p.1)) →
      deMap (if b then fun k => (deChar k).map (fun c => [c]) else deString) t.de (fieldDers gs) acc = some (acc ++ es) := by
  intro es
  induction es with
  | nil => intro ss hs; cases hs; exact ⟨[], rfl, fun acc _ => by simp [fieldDers, deMap]⟩
  | cons e es ih =>
    obtain ⟨k, d⟩ := e
    intro ss hs
    rw [serMap] at hs
    split at hs
    · next s ss' h1 h2 =>
      split at hs
      · cases hs
      · next hk =>
        obtain ⟨v, hv, hd⟩ := h d s h1
        obtain ⟨gs, hgs, hds⟩ := ih h2
        have key : ∀ acc : List (Str × Dat), (∀ x ∈ ((k, d) :: es).map (fun p => p.1), x ∉ acc.map (fun p => p.1)) →
            (match t.de v.der with
             | none => none
             | some d => deMap (if b then fun k => (deChar k).map (fun c => [c]) else deString) t.de (fieldDers gs) (insertMap acc k d)) = some (acc ++ (k, d) :: es) := by
          intro acc hacc
          rw [hd]
          simp only
          rw [insertMap_new (hacc k (by simp)), hds]
          · simp
          · intro x hx
            simp only [List.map_append, List.mem_append, not_or]
            refine ⟨hacc x (by simp only [List.map_cons, List.mem_cons]; exact .inr hx), ?_⟩
            simp only [List.map_cons, List.map_nil, List.mem_singleton]
            rintro rfl
            exact hk hx
        split at hs
        · cases hs
          refine ⟨(k, v) :: gs, ?_, fun acc hacc => ?_⟩
          · simp only [toEntries, Ser.toValue, hv, hgs]; rfl
          · simp only [fieldDers, deMap]
            exact key acc hacc
        · next c =>
          cases hs
          refine ⟨([c], v) :: gs, ?_, fun acc hacc => ?_⟩
          · simp only [toEntries, Ser.toValue, hv, hgs]; rfl
          · simp only [fieldDers, deMap]
            exact key acc hacc
        · cases hs
    · cases hs

theorem bytesOf_byteVals (bs : List UInt8) : bytesOf (byteVals bs) = .ok bs := by
  induction bs with
  | nil => rfl
  | cons b bs ih =>
    have : byteVals (b :: bs) = .u128 (.ofU8 b) :: byteVals bs := rfl
    rw [this, bytesOf, ih]
    have : byteOf (Value.u128 (.ofU8 b)) = .ok b := by
      have hb := b.toNat_lt
      simp [byteOf, Value.u128, Value.value, U128.ofU8, UInt8.ofNat_toNat]
      omega
    rw [this]

theorem serVariant_find {vs : List (Str × VTy)} {name : Str} {ds : List Dat} {s : Ser} (h : Ty.serVariant vs name ds = some s) :
    ∃ v, (name, v) ∈ vs ∧ v.ser name ds = some s ∧ ∀ c access, Ty.deVariant vs name c access = v.de c access := by
  induction vs with
  | nil => cases h
  | cons p vs ih =>
    obtain ⟨n, v⟩ := p
    rw [Ty.serVariant] at h
    split at h
    · next hn =>
      subst hn
      refine ⟨v, by simp, h, fun c a => ?_⟩
      rw [Ty.deVariant, if_pos rfl]
    · next hn =>
      obtain ⟨w, h1, h2, h3⟩ := ih h
      refine ⟨w, by simp [h1], h2, fun c a => ?_⟩
      rw [Ty.deVariant, if_neg hn, h3]

theorem der_variant_enum (n : Str) (f : Composite T) (c : T) :
    (Value.mk (.variant (.mk n f)) c).der.visit .enum = .enum (strDer n) (.mk f.ask) (accessOf f.ask) := by
  simp only [Value.der, Der.visit, Der.ask, ValueDef.ask, Variant.ask]

theorem de_enum (vs : List (Str × VTy)) (n : Str) (f : Composite T) (c : T) :
    (Ty.enum vs).de (Value.mk (.variant (.mk n f)) c).der = (Ty.deVariant vs n (.mk f.ask) (accessOf f.ask)).map (.enum n) := by
  rw [Ty.de, der_variant_enum]
  rfl

theorem map_some {A B : Type} {x : Option A} {f : A → B} {b : B} (h : x.map f = some b) : ∃ a, x = some a ∧ f a = b := by
  simpa [Option.map_eq_some_iff] using h

/-- The types of `Returns` come back. -/
theorem returns_comes {t : Ty} (h : Returns t) : Comes t := by
  induction h with
  | bool => intro d s hs; cases d <;> cases hs; exact ⟨_, rfl, rfl⟩
  | num t =>
    intro d s hs
    cases d with
    | num n =>
      rw [Ty.ser] at hs
      split at hs
      · next ht =>
        cases hs
        refine ⟨_, rfl, ?_⟩
        rw [Ty.de]
        have : deNum t (Value.der (.primitive n.toPrim)) = some n := by
          rw [deNum_iff]
          refine ⟨?_, ht⟩
          have := repNum_iff.2 (rfl : n.toPrim = _)
          revert this
          generalize n.toPrim = p
          intro h
          cases h with
          | unsigned s same => exact congrArg some same
          | signed s same => exact congrArg some same
        rw [this]; rfl
      · cases hs
    | _ => cases hs
  | char => intro d s hs; cases d <;> cases hs; exact ⟨_, rfl, rfl⟩
  | string => intro d s hs; cases d <;> cases hs; exact ⟨_, rfl, rfl⟩
  | bytes =>
    intro d s hs
    cases d <;> cases hs
    next bs =>
    refine ⟨_, rfl, ?_⟩
    have : bytesOf (bs.map (fun b => Value.u128 (.ofU8 b))) = .ok bs := bytesOf_byteVals bs
    simp only [Ty.de, deBytes, Der.visit, Der.ask, Value.unnamedComposite, Composite.mkUnnamed, Value.der, ValueDef.ask, Composite.ask, this]
    rfl
  | unit => intro d s hs; cases d <;> cases hs; exact ⟨_, rfl, rfl⟩
  | unitStruct => intro d s hs; cases d <;> cases hs; exact ⟨_, rfl, rfl⟩
  | @option t _ ih =>
    intro d s hs
    cases d with
    | none => cases hs; exact ⟨_, rfl, rfl⟩
    | some d =>
      rw [Ty.ser] at hs
      obtain ⟨s', h1, rfl⟩ := map_some hs
      obtain ⟨v, hv, hd⟩ := ih d s' h1
      refine ⟨.mk (.variant (.mk "Some".toList (.unnamed [v]))) (), ?_, ?_⟩
      · simp only [Ser.toValue, hv]; rfl
      · rw [deOption_iff]; exact .inr ⟨_, _, _, rfl, hd, rfl⟩
    | _ => cases hs
  | @seq t _ ih =>
    intro d s hs
    cases d with
    | list ds =>
      rw [Ty.ser] at hs
      obtain ⟨ss, h1, rfl⟩ := map_some hs
      obtain ⟨vs, hv, hd⟩ := comes_all ih h1
      refine ⟨.mk (.composite (.unnamed vs)) (), ?_, ?_⟩
      · simp only [Ser.toValue, hv]; rfl
      · simp only [Ty.de, Der.visit, Value.der, Der.ask, ValueDef.ask, Composite.ask, valDers_eq, hd, Option.map_some]
    | _ => cases hs
  | @tuple ts _ ih =>
    intro d s hs
    cases d with
    | list ds =>
      rw [Ty.ser] at hs
      obtain ⟨ss, h1, rfl⟩ := map_some hs
      obtain ⟨vs, hv, hl, hd⟩ := comes_list ih h1
      refine ⟨.mk (.composite (.unnamed vs)) (), ?_, ?_⟩
      · simp only [Ser.toValue, hv]; rfl
      · simp only [Ty.de, Der.visit, Value.der, Der.ask, ValueDef.ask, Composite.ask, valDers_eq, hd, hl, if_true, Option.map_some]
    | _ => cases hs
  | @tupleStruct ts _ ih =>
    intro d s hs
    cases d with
    | list ds =>
      rw [Ty.ser] at hs
      obtain ⟨ss, h1, rfl⟩ := map_some hs
      obtain ⟨vs, hv, hl, hd⟩ := comes_list ih h1
      refine ⟨.mk (.composite (.unnamed vs)) (), ?_, ?_⟩
      · simp only [Ser.toValue, hv]; rfl
      · simp only [Ty.de, Der.visit, Value.der, Der.ask, ValueDef.ask, Composite.ask, valDers_eq, hd, hl, if_true, Option.map_some]
    | _ => cases hs
  | @struct fs names _ ih =>
    intro d s hs
    cases d with
    | list ds =>
      rw [Ty.ser] at hs
      obtain ⟨ss, h1, rfl⟩ := map_some hs
      obtain ⟨gs, hg, hn, hd⟩ := comes_fields ih h1
      refine ⟨.mk (.composite (.named gs)) (), ?_, ?_⟩
      · simp only [Ser.toValue, hg]
        have hm : gs.map (fun p => (p.1, p.2)) = gs := by simp
        exact congrArg (fun x => Except.ok (Value.mk (.composite (.named x)) ())) hm
      · simp only [Ty.de, Der.visit, Value.der, Der.ask, ValueDef.ask, Composite.ask, structOf_fields]
        rw [deFields_iff.2 (fields_found hn names hd)]
        rfl
    | _ => cases hs
  | @enum vs newtype tuple names struct ihT ihS =>
    intro d s hs
    cases d with
    | enum name ds =>
      rw [Ty.ser] at hs
      obtain ⟨v, hv, h1, h2⟩ := serVariant_find hs
      cases v with
      | newtype t => exact absurd rfl (newtype _ hv t)
      | unit =>
        cases ds with
        | cons => cases h1
        | nil =>
          cases h1
          refine ⟨_, rfl, ?_⟩
          rw [Value.variant, de_enum, h2, VTy.de]
          rfl
      | tuple ts =>
        rw [VTy.ser] at h1
        obtain ⟨ss, h3, rfl⟩ := map_some h1
        obtain ⟨vs, hv, hl, hd⟩ := comes_list (ihT _ hv ts rfl) h3
        refine ⟨.mk (.variant (.mk name (.unnamed vs))) (), ?_, ?_⟩
        · simp only [Ser.toValue, hv]; rfl
        · rw [de_enum, h2, VTy.de]
          simp only [accessOf, Composite.ask, hl, if_true, valDers_eq, hd]
          rfl
      | struct fs =>
        rw [VTy.ser] at h1
        obtain ⟨ss, h3, rfl⟩ := map_some h1
        obtain ⟨gs, hg, hn, hd⟩ := comes_fields (ihS _ hv fs rfl) h3
        refine ⟨.mk (.variant (.mk name (.named gs))) (), ?_, ?_⟩
        · simp only [Ser.toValue, hg]; rfl
        · rw [de_enum, h2, VTy.de]
          simp only [accessOf, Composite.ask, structOf_fields]
          rw [deFields_iff.2 (fields_found hn (names _ hv fs rfl) hd)]
          rfl
    | _ => cases hs
  | @map b t _ ih =>
    intro d s hs
    cases d with
    | map es =>
      rw [Ty.ser] at hs
      obtain ⟨ss, h1, rfl⟩ := map_some hs
      obtain ⟨gs, hg, hd⟩ := comes_map ih h1
      refine ⟨.mk (.composite (.named gs)) (), ?_, ?_⟩
      · simp only [Ser.toValue, hg]
        have hm : gs.map (fun p => (p.1, p.2)) = gs := by simp
        exact congrArg (fun x => Except.ok (Value.mk (.composite (.named x)) ())) hm
      · have := hd [] (by simp)
        rw [Ty.de]
        simp only [Der.visit, Value.der, Der.ask, ValueDef.ask, Composite.ask]
        rw [this]
        rfl
    | _ => cases hs

end SV
