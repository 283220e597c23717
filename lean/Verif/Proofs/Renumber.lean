import Verif.Spec.Renumber
import Verif.Proofs.Bottomless
import Verif.Proofs.DecodeCtx
import Mathlib.Data.List.Forall2
/-
Proofs for C92.
-/
namespace SV

variable {Id Id' Γ Δ : Type}

/-- A set of types which is closed, and in which `f` gives the other ids. -/
structure RenSet (f : Id → Id') (res : Table Id) (res' : Table Id') (S : Id → Prop) : Prop where
  closed : ∀ a d w, S a → res a = some d → w ∈ d.mentions → S w
  same : ∀ a, S a → res' (f a) = (res a).map (TypeDef.renumber f)

theorem Renumbers.set {f : Id → Id'} {res : Table Id} {res' : Table Id'} {t : Id} (h : Renumbers f res res' t) : RenSet f res res' (WithinType res t) :=
  ⟨fun _ _ _ ha hd hw => .step ha hd hw, h⟩

theorem limit_map {A B : Type} (g : A → B) {f : Nat → Option A} (hm : ∀ n m r, n ≤ m → f n = some r → f m = some r) : limit (fun n => (f n).map g) = (limit f).map g := by
  cases h : limit f with
  | none => rw [limit_none] at h; rw [Option.map_none, limit_none]; intro n; rw [h n]; rfl
  | some r =>
    obtain ⟨n, hn⟩ := (limit_some hm).1 h
    rw [Option.map_some, limit_some]
    · exact ⟨n, by rw [hn]; rfl⟩
    · intro n m r hnm h
      obtain ⟨x, hx, rfl⟩ := Option.map_eq_some_iff.1 h
      rw [hm n m x hnm hx]; rfl

/-! ### Decoding -/

/-- A step with other ids. -/
def DStep.renumber (f : Id → Id') : DStep Id → DStep Id'
  | .leaf l r => .leaf l r
  | .items ts r => .items (ts.map f) r
  | .composite fs r => .composite (fs.map (Field.renumber f)) r
  | .variant n fs r => .variant n (fs.map (Field.renumber f)) r

/-- The types of a step. -/
def DStep.types : DStep Id → List Id
  | .leaf _ _ => []
  | .items ts _ => ts
  | .composite fs _ => fs.map (fun f => f.id)
  | .variant _ fs _ => fs.map (fun f => f.id)

theorem leafStep_ren (f : Id → Id') (x : Except DErr (Leaf × List UInt8)) : (leafStep x : Except DErr (DStep Id')) = (leafStep x : Except DErr (DStep Id)).map (DStep.renumber f) := by
  rcases x with e | ⟨l, r⟩ <;> rfl

theorem visitCompact_ren {f : Id → Id'} {res : Table Id} {res' : Table Id'} {S} (hS : RenSet f res res' S) {u : Id} (hu : S u) (bs : List UInt8) :
    visitCompactT res' (f u) bs = (visitCompactT res u bs).map (DStep.renumber f) := by
  unfold visitCompactT
  rw [hS.same u hu]
  generalize res u = d
  rcases d with _ | d
  · rfl
  · cases d with
    | primitive p => exact leafStep_ren f _
    | composite fs => simp only [Option.map_some, TypeDef.renumber, List.length_map]; split <;> rfl
    | tuple ts => simp only [Option.map_some, TypeDef.renumber, List.length_map]; split <;> rfl
    | _ => rfl

theorem visitPlain_ren {f : Id → Id'} {res : Table Id} {res' : Table Id'} {S} (hS : RenSet f res res' S) {u : Id} (hu : S u) (bs : List UInt8) :
    visitPlainT res' (f u) bs = (visitPlainT res u bs).map (DStep.renumber f) := by
  unfold visitPlainT
  rw [hS.same u hu]
  generalize res u = d
  rcases d with _ | d
  · rfl
  · cases d with
    | primitive p => exact leafStep_ren f _
    | composite fs => rfl
    | tuple ts => rfl
    | array t n => simp [TypeDef.renumber, Except.map, DStep.renumber]
    | sequence t =>
      simp only [Option.map_some, TypeDef.renumber]
      cases compactDec 64 bs with
      | none => rfl
      | some x => simp [Except.map, DStep.renumber]
    | variant vs =>
      simp only [Option.map_some, TypeDef.renumber]
      cases bs with
      | nil => rfl
      | cons i r =>
        simp only [List.find?_map]
        have : ((fun v : VariantDef Id' => v.index == i) ∘ VariantDef.renumber f) = (fun v : VariantDef Id => v.index == i) := rfl
        rw [this]
        cases vs.find? (fun v => v.index == i) with
        | none => rfl
        | some v => rfl
    | bitSequence s o =>
      simp only [Option.map_some, TypeDef.renumber]
      cases bitsDec s o bs with
      | none => rfl
      | some x => rfl
    | compact t => rfl

/-- A visit with other ids. -/
def Visit.renumber (f : Id → Id') (v : Visit Id) : Visit Id' := ⟨f v.ty, v.compact, v.step.renumber f⟩

theorem visit_ren {f : Id → Id'} {res : Table Id} {res' : Table Id'} {S} (hS : RenSet f res res' S) {u : Id} (hu : S u) (c : Bool) (bs : List UInt8) :
    visitT res' c (f u) bs = (visitT res c u bs).map (Visit.renumber f) := by
  unfold visitT
  cases c with
  | true =>
    simp only [if_true]
    rw [visitCompact_ren hS hu]
    cases visitCompactT res u bs <;> rfl
  | false =>
    simp only [Bool.false_eq_true, if_false]
    rw [visitPlain_ren hS hu, hS.same u hu]
    have hp : ∀ x : Except DErr (DStep Id), (match x.map (DStep.renumber f) with
        | .error e => .error e
        | .ok s => .ok ⟨f u, false, s⟩ : Except DErr (Visit Id')) = (match x with
        | .error e => .error e
        | .ok s => .ok ⟨u, false, s⟩ : Except DErr (Visit Id)).map (Visit.renumber f) := by
      intro x; cases x <;> rfl
    cases hr : res u with
    | none => exact hp _
    | some d =>
      cases d with
      | compact w =>
        simp only [Option.map_some, TypeDef.renumber]
        rw [visitCompact_ren hS (hS.closed u _ w hu hr (by simp [TypeDef.mentions]))]
        cases visitCompactT res w bs <;> rfl
      | _ => exact hp _

theorem visit_types {f : Id → Id'} {res : Table Id} {res' : Table Id'} {S} (hS : RenSet f res res' S) {u : Id} (hu : S u) {c : Bool} {bs : List UInt8} {v} (h : visitT res c u bs = .ok v) :
    ∀ w ∈ v.step.types, S w := by
  have hleaf : ∀ (x : Except DErr (Leaf × List UInt8)) s, leafStep x = .ok s → ∀ w ∈ (s : DStep Id).types, S w := by
    intro x s h w hw
    rcases x with e | ⟨l, r⟩
    · cases h
    · cases h; cases hw
  have hc : ∀ u s, S u → visitCompactT res u bs = .ok s → ∀ w ∈ s.types, S w := by
    intro u s hu h w hw
    unfold visitCompactT at h
    split at h
    · cases h
    · exact hleaf _ _ h w hw
    · next fs hr =>
      split at h
      · cases h; exact hS.closed u _ w hu hr hw
      · cases h
    · next ts hr =>
      split at h
      · cases h; exact hS.closed u _ w hu hr hw
      · cases h
    · cases h
  have hp : ∀ s, visitPlainT res u bs = .ok s → ∀ w ∈ s.types, S w := by
    intro s h w hw
    unfold visitPlainT at h
    split at h
    · cases h
    · exact hleaf _ _ h w hw
    · next fs hr => cases h; exact hS.closed u _ w hu hr hw
    · next ts hr => cases h; exact hS.closed u _ w hu hr hw
    · next t n hr =>
      cases h
      exact hS.closed u _ w hu hr (by simp [DStep.types] at hw; simp [TypeDef.mentions, hw])
    · next t hr =>
      split at h
      · cases h
      · cases h
        exact hS.closed u _ w hu hr (by simp [DStep.types] at hw; simp [TypeDef.mentions, hw])
    · next vs hr =>
      split at h
      · cases h
      · split at h
        · cases h
        · next v hv =>
          cases h
          refine hS.closed u _ w hu hr ?_
          rw [TypeDef.mentions, List.mem_flatten]
          exact ⟨_, List.mem_map_of_mem (List.mem_of_find?_eq_some hv), hw⟩
    · split at h
      · cases h
      · cases h; cases hw
    · cases h
  unfold visitT at h
  split at h
  · split at h
    · cases h
    · next s hs => cases h; exact hc u s hu hs
  · split at h
    · next w hr =>
      split at h
      · cases h
      · next s hs => cases h; exact hc w s (hS.closed u _ w hu hr (by simp [TypeDef.mentions])) hs
    · split at h
      · cases h
      · next s hs => cases h; exact hp s hs

theorem isNamed_ren (f : Id → Id') (fs : List (Field Id)) : isNamed (fs.map (Field.renumber f)) = isNamed fs := by
  unfold isNamed
  rw [List.length_map, List.any_map]
  rfl

theorem decItems_ren {f : Id → Id'} {dec : Id → List UInt8 → Option (Out DErr (Value Γ × List UInt8))} {dec' : Id' → List UInt8 → Option (Out DErr (Value Γ × List UInt8))} :
    ∀ {ts : List Id}, (∀ u ∈ ts, ∀ bs, dec' (f u) bs = dec u bs) → ∀ bs, decItems dec' (ts.map f) bs = decItems dec ts bs := by
  intro ts
  induction ts with
  | nil => intro _ bs; rfl
  | cons t ts ih =>
    intro h bs
    rw [List.map_cons, decItems, decItems, h t (by simp)]
    cases dec t bs with
    | none => rfl
    | some o => cases o with
      | panic => rfl
      | err e => rfl
      | ok x => simp only [ih (fun u hu => h u (by simp [hu]))]

theorem decUnnamed_ren {f : Id → Id'} {al : Nat → Bool} {dec : Id → List UInt8 → Option (Out DErr (Value Γ × List UInt8))}
    {dec' : Id' → List UInt8 → Option (Out DErr (Value Γ × List UInt8))} {ts : List Id} (h : ∀ u ∈ ts, ∀ bs, dec' (f u) bs = dec u bs) (bs : List UInt8) :
    decUnnamed al dec' (ts.map f) bs = decUnnamed al dec ts bs := by
  unfold decUnnamed
  rw [List.length_map, decItems_ren h]

theorem decComposite_ren {f : Id → Id'} {al : Nat → Bool} {dec : Id → List UInt8 → Option (Out DErr (Value Γ × List UInt8))}
    {dec' : Id' → List UInt8 → Option (Out DErr (Value Γ × List UInt8))} {fs : List (Field Id)} (h : ∀ x ∈ fs, ∀ bs, dec' (f x.id) bs = dec x.id bs) (bs : List UInt8) :
    decComposite al dec' (fs.map (Field.renumber f)) bs = decComposite al dec fs bs := by
  have hi : (fs.map (Field.renumber f)).map (fun x => x.id) = (fs.map (fun x => x.id)).map f := by
    rw [List.map_map, List.map_map]; rfl
  have hd := decItems_ren (f := f) (dec := dec) (dec' := dec') (ts := fs.map (fun x => x.id)) (fun u hu => by
    obtain ⟨x, hx, rfl⟩ := List.mem_map.1 hu
    exact h x hx)
  have hn : (fs.map (Field.renumber f)).map (fun x => x.name) = fs.map (fun x => x.name) := by rw [List.map_map]; rfl
  have hf : ∀ fs : List (Field Id), (∀ x ∈ fs, ∀ bs, dec' (f x.id) bs = dec x.id bs) → ∀ bs, decFields dec' (fs.map (Field.renumber f)) bs = decFields dec fs bs := by
    intro fs
    induction fs with
    | nil => intro _ bs; rfl
    | cons t ts ih =>
      intro h bs
      rw [List.map_cons, decFields, decFields]
      rw [show (Field.renumber f t).id = f t.id from rfl, h t (by simp)]
      cases dec t.id bs with
      | none => rfl
      | some o => cases o with
        | panic => rfl
        | err e => rfl
        | ok x => simp only [ih (fun u hu => h u (by simp [hu]))]; rfl
  unfold decComposite
  rw [List.length_map, isNamed_ren, hi, hd, hf fs h]

theorem decT_ren {f : Id → Id'} {res : Table Id} {res' : Table Id'} {S} (hS : RenSet f res res' S) (al : Nat → Bool) (ctx : Id' → Γ) : ∀ n c u, S u → ∀ bs,
    decT res' al ctx n c (f u) bs = decT res al (fun x => ctx (f x)) n c u bs := by
  intro n
  induction n with
  | zero => intro c u _ bs; rfl
  | succ n ih =>
    intro c u hu bs
    rw [decT, decT, visit_ren hS hu]
    cases hv : visitT res c u bs with
    | error e => rfl
    | ok v =>
      have ht := visit_types hS hu hv
      obtain ⟨ty, c', s⟩ := v
      cases s with
      | leaf l r => cases l <;> rfl
      | items ts r =>
        simp only [Except.map, Visit.renumber, DStep.renumber]
        rw [decUnnamed_ren (ts := ts) (fun w hw => ih c' w (ht w hw))]
      | composite fs r =>
        simp only [Except.map, Visit.renumber, DStep.renumber]
        rw [decComposite_ren (fun x hx => ih c' x.id (ht x.id (List.mem_map_of_mem hx)))]
      | variant nm fs r =>
        simp only [Except.map, Visit.renumber, DStep.renumber]
        rw [decComposite_ren (fun x hx => ih c' x.id (ht x.id (List.mem_map_of_mem hx)))]

theorem decT_map (g : Γ → Δ) (res : Table Id) (al : Nat → Bool) (ctx : Id → Γ) (n : Nat) : ∀ c t bs,
    decT res al (fun u => g (ctx u)) n c t bs = mapDec g (decT res al ctx n c t bs) := by
  induction n with
  | zero => intro c t bs; rfl
  | succ n ih =>
    intro c t bs
    have hmk : ∀ (mk : Composite Γ → Value Γ) (mk' : Composite Δ → Value Δ) x, (∀ cs, mk' (cs.mapContextS (fun (s : Unit) t => (g t, s)) ()) = (mk cs).mapContext g) →
        mkVal mk' (mapGroup g x) = mapDec g (mkVal mk x) := by
      intro mk mk' x h
      cases x with
      | none => rfl
      | some o => cases o with
        | panic => rfl
        | err e => rfl
        | ok y => simp only [mapGroup, mkVal, mapDec, Option.map_some, Out.map, h]
    rw [decT, decT]
    cases visitT res c t bs with
    | error e => rfl
    | ok w =>
      obtain ⟨ty, c', s⟩ := w
      cases s with
      | leaf l r => cases l <;> rfl
      | items ts r =>
        simp only
        rw [decUnnamed_map g al (ih c')]
        exact hmk _ _ _ (fun cs => rfl)
      | composite fs r =>
        simp only
        rw [decComposite_map g al (ih c')]
        exact hmk _ _ _ (fun cs => rfl)
      | variant nm fs r =>
        simp only
        rw [decComposite_map g al (ih c')]
        exact hmk _ _ _ (fun cs => rfl)

/-! ### Tracing -/

/-- What is done to contexts of composites. -/
abbrev Composite.renCtx (f : Id → Id') (c : Composite Id) : Composite Id' := c.mapContextS (fun (s : Unit) t => (f t, s)) ()

/-- What a group of values gives with other ids. -/
def groupRenumber (f : Id → Id') : Out (TErr (Composite Id)) (Composite Id × List UInt8) → Out (TErr (Composite Id')) (Composite Id' × List UInt8)
  | .ok (v, r) => .ok (v.renCtx f, r)
  | .err (.fromDecode e) => .err (.fromDecode e)
  | .err (.fromVisitor p v e) => .err (.fromVisitor p (v.renCtx f) e)
  | .panic => .panic

theorem renCtx_unnamed (f : Id → Id') (vs : List (Value Id)) : (Composite.unnamed vs).renCtx f = .unnamed (vs.map (Value.mapContext f)) := by
  unfold Composite.renCtx
  rw [Composite.mapContextS, mapValsS_eq]; rfl

theorem renCtx_named (f : Id → Id') (vs : List (Str × Value Id)) : (Composite.named vs).renCtx f = .named (vs.map (fun p => (p.1, p.2.mapContext f))) := by
  unfold Composite.renCtx
  rw [Composite.mapContextS, mapFieldsS_eq]; rfl

theorem trItems_ren {f : Id → Id'} {dec : Path → Id → List UInt8 → Option (Out (TErr (Value Id)) (Value Id × List UInt8))}
    {dec' : Path → Id' → List UInt8 → Option (Out (TErr (Value Id')) (Value Id' × List UInt8))} {path : Path} :
    ∀ {ts : List Id}, (∀ u ∈ ts, ∀ p bs, dec' p (f u) bs = (dec p u bs).map (traceRenumber f)) → ∀ k vs bs,
    trItems dec' path (ts.map f) k (vs.map (Value.mapContext f)) bs = (trItems dec path ts k vs bs).map (groupRenumber f) := by
  intro ts
  induction ts with
  | nil => intro _ k vs bs; simp [trItems, groupRenumber, renCtx_unnamed]
  | cons t ts ih =>
    intro h k vs bs
    rw [List.map_cons, trItems, trItems, h t (by simp)]
    cases dec (path ++ [.index k]) t bs with
    | none => rfl
    | some o => cases o with
      | panic => rfl
      | err e => cases e <;> simp [traceRenumber, groupRenumber, TErr.withOuter, renCtx_unnamed]
      | ok x =>
        obtain ⟨v, r⟩ := x
        simp only [Option.map_some, traceRenumber]
        have := ih (fun u hu => h u (by simp [hu])) (k + 1) (vs ++ [v]) r
        rw [List.map_append] at this
        exact this

theorem trUnnamed_ren {f : Id → Id'} {al : Nat → Bool} {dec : Path → Id → List UInt8 → Option (Out (TErr (Value Id)) (Value Id × List UInt8))}
    {dec' : Path → Id' → List UInt8 → Option (Out (TErr (Value Id')) (Value Id' × List UInt8))} {path : Path}
    {ts : List Id} (h : ∀ u ∈ ts, ∀ p bs, dec' p (f u) bs = (dec p u bs).map (traceRenumber f)) (bs : List UInt8) :
    trUnnamed al dec' path (ts.map f) bs = (trUnnamed al dec path ts bs).map (groupRenumber f) := by
  unfold trUnnamed
  rw [List.length_map]
  split
  · rfl
  · split
    · rfl
    · exact trItems_ren h 0 [] bs

theorem trNamed_ren {f : Id → Id'} {dec : Path → Id → List UInt8 → Option (Out (TErr (Value Id)) (Value Id × List UInt8))}
    {dec' : Path → Id' → List UInt8 → Option (Out (TErr (Value Id')) (Value Id' × List UInt8))} {path : Path} :
    ∀ {fs : List (Field Id)}, (∀ x ∈ fs, ∀ p bs, dec' p (f x.id) bs = (dec p x.id bs).map (traceRenumber f)) → ∀ vs bs,
    trNamedFields dec' path (fs.map (Field.renumber f)) (vs.map (fun p => (p.1, p.2.mapContext f))) bs = (trNamedFields dec path fs vs bs).map (groupRenumber f) := by
  intro fs
  induction fs with
  | nil => intro _ vs bs; simp [trNamedFields, groupRenumber, renCtx_named]
  | cons t ts ih =>
    intro h vs bs
    rw [List.map_cons, trNamedFields, trNamedFields]
    simp only [Field.renumber]
    rw [h t (by simp)]
    cases dec (path ++ [.field (t.name.getD "<unnamed>".toList)]) t.id bs with
    | none => rfl
    | some o => cases o with
      | panic => rfl
      | err e => cases e <;> simp [traceRenumber, groupRenumber, TErr.withOuter, renCtx_named]
      | ok x =>
        obtain ⟨v, r⟩ := x
        simp only [Option.map_some, traceRenumber]
        have := ih (fun u hu => h u (by simp [hu])) (vs ++ [(t.name.getD "<unnamed>".toList, v)]) r
        rw [List.map_append] at this
        exact this

theorem trGroupOf_ren {f : Id → Id'} {al : Nat → Bool} {dec : Path → Id → List UInt8 → Option (Out (TErr (Value Id)) (Value Id × List UInt8))}
    {dec' : Path → Id' → List UInt8 → Option (Out (TErr (Value Id')) (Value Id' × List UInt8))} {path : Path}
    {fs : List (Field Id)} (h : ∀ x ∈ fs, ∀ p bs, dec' p (f x.id) bs = (dec p x.id bs).map (traceRenumber f)) (bs : List UInt8) :
    trGroupOf al dec' path (fs.map (Field.renumber f)) bs = (trGroupOf al dec path fs bs).map (groupRenumber f) := by
  have hi : (fs.map (Field.renumber f)).map (fun x => x.id) = (fs.map (fun x => x.id)).map f := by
    rw [List.map_map, List.map_map]; rfl
  unfold trGroupOf
  rw [List.length_map, isNamed_ren, hi]
  split
  · exact trUnnamed_ren (fun u hu => by
      obtain ⟨x, hx, rfl⟩ := List.mem_map.1 hu
      exact h x hx) bs
  · split
    · rfl
    · exact trNamed_ren h [] bs

theorem trT_ren {f : Id → Id'} {res : Table Id} {res' : Table Id'} {S} (hS : RenSet f res res' S) (al : Nat → Bool) : ∀ n c u, S u → ∀ path bs,
    trT res' al n c path (f u) bs = (trT res al n c path u bs).map (traceRenumber f) := by
  intro n
  induction n with
  | zero => intro c u _ path bs; rfl
  | succ n ih =>
    intro c u hu path bs
    rw [trT, trT, visit_ren hS hu]
    cases hv : visitT res c u bs with
    | error e => rfl
    | ok v =>
      have ht := visit_types hS hu hv
      obtain ⟨ty, c', s⟩ := v
      have hval : ∀ x, trMkVal (f ty) (x.map (groupRenumber f)) = (trMkVal ty x).map (traceRenumber f) := by
        intro x
        rcases x with _ | _ | e | _
        · rfl
        · rfl
        · cases e <;> rfl
        · rfl
      have hvar : ∀ nm x, trMkVariant path (f ty) nm (x.map (groupRenumber f)) = (trMkVariant path ty nm x).map (traceRenumber f) := by
        intro nm x
        rcases x with _ | _ | e | _
        · rfl
        · rfl
        · cases e <;> rfl
        · rfl
      cases s with
      | leaf l r => cases l <;> rfl
      | items ts r =>
        simp only [Except.map, Visit.renumber, DStep.renumber]
        rw [trUnnamed_ren (ts := ts) (fun w hw p bs => ih c' w (ht w hw) p bs)]
        exact hval _
      | composite fs r =>
        simp only [Except.map, Visit.renumber, DStep.renumber]
        rw [trGroupOf_ren (fun x hx p bs => ih c' x.id (ht x.id (List.mem_map_of_mem hx)) p bs)]
        exact hval _
      | variant nm fs r =>
        simp only [Except.map, Visit.renumber, DStep.renumber]
        rw [trGroupOf_ren (fun x hx p bs => ih c' x.id (ht x.id (List.mem_map_of_mem hx)) p bs)]
        exact hvar _ _

/-! ### Encoding -/

/-- The encoders do the same, with other ids. -/
def RenT (f : Id → Id') (a : EncT Id) (a' : EncT Id') : Prop := ∀ out, a' out = (a out).map (encRenumber f)

theorem ren_ret {f : Id → Id'} {a : EncM Id} {a' : EncM Id'} (h : ∀ out, a' out = encRenumber f (a out)) : RenT f (.ret a) (.ret a') := by
  intro out; simp only [EncT.ret, h, Option.map_some]

theorem ren_write (f : Id → Id') (bs : List UInt8) : RenT f (.ret (.write bs)) (.ret (.write bs)) := ren_ret (fun _ => rfl)

theorem ren_fail {f : Id → Id'} {k : EKind Id} {k' : EKind Id'} (h : k' = k.renumber f) : RenT f (.ret (.fail k)) (.ret (.fail k')) := by
  subst h; exact ren_ret (fun _ => rfl)

theorem ren_seq {f : Id → Id'} {a b : EncT Id} {a' b' : EncT Id'} (ha : RenT f a a') (hb : RenT f b b') : RenT f (.seq a b) (.seq a' b') := by
  intro out
  simp only [EncT.seq, ha out]
  rcases a out with _ | ⟨_ | _, o⟩
  · rfl
  · rfl
  · exact hb o

theorem ren_mapErr {f : Id → Id'} {a : EncT Id} {a' : EncT Id'} {g : EErr Id → EErr Id} {g' : EErr Id' → EErr Id'}
    (hg : ∀ e : EErr Id, g' ⟨e.path, e.kind.renumber f⟩ = ⟨(g e).path, (g e).kind.renumber f⟩) (ha : RenT f a a') : RenT f (.mapErr g a) (.mapErr g' a') := by
  intro out
  simp only [EncT.mapErr, ha out]
  rcases a out with _ | ⟨e | _, o⟩
  · rfl
  · simp [encRenumber, hg]
  · rfl

theorem ren_after {f : Id → Id'} {A A' : Type} {x : Option A} {x' : Option A'} {g : A → A'} (hx : x' = x.map g) {k : A → EncT Id} {k' : A' → EncT Id'}
    (hk : ∀ a, x = some a → RenT f (k a) (k' (g a))) : RenT f (.after x k) (.after x' k') := by
  subst hx
  rcases x with _ | a
  · intro out; rfl
  · exact hk a rfl

/-- A value with other ids. -/
structure RenChild (f : Id → Id') (S : Id → Prop) (c : ChildT Id) (c' : ChildT Id') : Prop where
  name : c'.name = c.name
  bit : c'.bit = c.bit
  enc : ∀ u, S u → RenT f (c.enc u) (c'.enc (f u))

theorem findSingleTN_ren {f : Id → Id'} {res : Table Id} {res' : Table Id'} {S} (hS : RenSet f res res' S) : ∀ n u b, S u →
    findSingleTN res' n (f u) b = (findSingleTN res n u b).map (fun p => (f p.1, p.2)) := by
  intro n
  induction n with
  | zero => intro u b _; rfl
  | succ n ih =>
    intro u b hu
    rw [findSingleTN, findSingleTN, hS.same u hu]
    have hc := hS.closed u
    generalize res u = d at hc
    rcases d with _ | d
    · rfl
    · rcases d with fs | _ | _ | ⟨w, k⟩ | ts | _ | _ | _
      case composite =>
        rcases fs with _ | ⟨x, _ | ⟨x', fs⟩⟩
        · rfl
        · exact ih _ _ (hc _ _ hu rfl (by simp [TypeDef.mentions]))
        · rfl
      case tuple =>
        rcases ts with _ | ⟨w, _ | ⟨w', ts⟩⟩
        · rfl
        · exact ih _ _ (hc _ _ hu rfl (by simp [TypeDef.mentions]))
        · rfl
      case array =>
        rcases k with _ | _ | k
        · rfl
        · exact ih _ _ (hc _ _ hu rfl (by simp [TypeDef.mentions]))
        · rfl
      all_goals rfl

theorem findSingleT_ren {f : Id → Id'} {res : Table Id} {res' : Table Id'} {S} (hS : RenSet f res res' S) {u : Id} (hu : S u) :
    findSingleT res' (f u) = (findSingleT res u).map (fun p => (f p.1, p.2)) := by
  unfold findSingleT
  rw [← limit_map _ (fun n m r h => findSingleTN_mono res n m u false r h)]
  congr 1
  funext n
  exact findSingleTN_ren hS n u false hu

theorem skipTN_ren {f : Id → Id'} {res : Table Id} {res' : Table Id'} {S} (hS : RenSet f res res' S) : ∀ n u, S u →
    skipTN res' n (f u) = (skipTN res n u).map f := by
  intro n
  induction n with
  | zero => intro u _; rfl
  | succ n ih =>
    intro u hu
    rw [skipTN, skipTN, hS.same u hu]
    have hc := hS.closed u
    generalize res u = d at hc
    rcases d with _ | d
    · rfl
    · rcases d with fs | _ | _ | ⟨w, k⟩ | ts | _ | _ | _
      case composite =>
        rcases fs with _ | ⟨⟨_ | _, w⟩, _ | ⟨x', fs⟩⟩
        · rfl
        · exact ih _ (hc _ _ hu rfl (by simp [TypeDef.mentions]))
        all_goals rfl
      case tuple =>
        rcases ts with _ | ⟨w, _ | ⟨w', ts⟩⟩
        · rfl
        · exact ih _ (hc _ _ hu rfl (by simp [TypeDef.mentions]))
        · rfl
      all_goals rfl

theorem skipT_ren {f : Id → Id'} {res : Table Id} {res' : Table Id'} {S} (hS : RenSet f res res' S) {u : Id} (hu : S u) : skipT res' (f u) = (skipT res u).map f := by
  unfold skipT
  rw [← limit_map _ (fun n m r h => skipTN_mono res n m u r h)]
  congr 1
  funext n
  exact skipTN_ren hS n u hu

theorem RenSet.wraps {f : Id → Id'} {res : Table Id} {res' : Table Id'} {S} (hS : RenSet f res res' S) : ∀ a b, S a → WrapsIn res a b → S b := by
  intro a b ha hw
  obtain ⟨d, hd, hm⟩ := wrapsIn_mentions hw
  exact hS.closed a d b ha hd hm

theorem ren_items {f : Id → Id'} {S : Id → Prop} {t : Id} {named : Bool} (ht : S t) {cs : List (ChildT Id)} {cs' : List (ChildT Id')} (h : List.Forall₂ (RenChild f S) cs cs') :
    ∀ k, RenT f (encItemsT t named k cs) (encItemsT (f t) named k cs') := by
  induction h with
  | nil => intro k; exact ren_ret (fun _ => rfl)
  | @cons c c' cs cs' hc _ ih =>
    intro k
    refine ren_seq (ren_mapErr (fun e => ?_) (hc.enc t ht)) (ih (k + 1))
    rw [hc.name]
    split <;> rfl

theorem ren_find {f : Id → Id'} {S : Id → Prop} {cs : List (ChildT Id)} {cs' : List (ChildT Id')} (h : List.Forall₂ (RenChild f S) cs cs') (s : Str) :
    Option.Rel (RenChild f S) (cs.find? (fun c => c.name.getD [] == s)) (cs'.find? (fun c => c.name.getD [] == s)) := by
  induction h with
  | nil => exact .none
  | @cons c c' cs cs' hc _ ih =>
    rw [List.find?_cons, List.find?_cons, hc.name]
    split
    · exact .some hc
    · exact ih

theorem ren_any {f : Id → Id'} {S : Id → Prop} {cs : List (ChildT Id)} {cs' : List (ChildT Id')} (h : List.Forall₂ (RenChild f S) cs cs') :
    cs'.any (fun c => c.name.isSome) = cs.any (fun c => c.name.isSome) := by
  induction h with
  | nil => rfl
  | cons hc _ ih => rw [List.any_cons, List.any_cons, hc.name, ih]

theorem ren_fields {f : Id → Id'} {S : Id → Prop} {cs : List (ChildT Id)} {cs' : List (ChildT Id')} (h : List.Forall₂ (RenChild f S) cs cs') {fs : List (Field Id)} (hf : ∀ x ∈ fs, S x.id) :
    RenT f (encFieldsToT cs fs) (encFieldsToT cs' (fs.map (Field.renumber f))) := by
  unfold encFieldsToT
  rw [ren_any h, h.length_eq, List.length_map, List.any_map]
  have ha : (fs.any ((fun x : Field Id' => x.name.isSome) ∘ Field.renumber f)) = fs.any (fun x => x.name.isSome) := rfl
  rw [ha]
  split
  · clear * - h hf
    induction fs with
    | nil => exact ren_ret (fun _ => rfl)
    | cons x fs ih =>
      rw [List.map_cons, encByNameT, encByNameT]
      have hr := ren_find (List.rel_reverse h) (x.name.getD [])
      rw [show (Field.renumber f x).name = x.name from rfl]
      generalize cs.reverse.find? (fun c => c.name.getD [] == x.name.getD []) = a at hr
      generalize cs'.reverse.find? (fun c => c.name.getD [] == x.name.getD []) = b at hr
      cases hr with
      | none => exact ren_fail rfl
      | some hc => exact ren_seq (ren_mapErr (fun e => rfl) (hc.enc _ (hf x (by simp)))) (ih (fun x hx => hf x (by simp [hx])))
  · split
    · exact ren_fail rfl
    · clear * - h hf
      generalize 0 = k
      induction h generalizing fs k with
      | nil => unfold encByOrderT; exact ren_ret (fun _ => rfl)
      | @cons c c' cs cs' hc _ ih =>
        cases fs with
        | nil => exact ren_ret (fun _ => rfl)
        | cons x fs =>
          rw [List.map_cons, encByOrderT, encByOrderT]
          refine ren_seq (ren_mapErr (fun e => ?_) (hc.enc _ (hf x (by simp)))) (ih (fun x hx => hf x (by simp [hx])) (k + 1))
          rw [hc.name]
          cases c.name <;> rfl

theorem ren_bools {f : Id → Id'} {S : Id → Prop} {cs : List (ChildT Id)} {cs' : List (ChildT Id')} (h : List.Forall₂ (RenChild f S) cs cs') : ∀ k,
    (∃ bs, encBoolsT k cs = .ok bs ∧ encBoolsT k cs' = .ok bs) ∨ ∃ p, encBoolsT k cs = .error ⟨p, .custom⟩ ∧ encBoolsT k cs' = .error ⟨p, .custom⟩ := by
  induction h with
  | nil => intro k; exact .inl ⟨[], rfl, rfl⟩
  | @cons c c' cs cs' hc _ ih =>
    intro k
    simp only [encBoolsT, hc.bit]
    cases c.bit with
    | none => exact .inr ⟨_, rfl, rfl⟩
    | some b =>
      rcases ih (k + 1) with ⟨bs, h, h'⟩ | ⟨p, h, h'⟩
      · exact .inl ⟨b :: bs, by simp [h], by simp [h']⟩
      · exact .inr ⟨p, by simp [h], by simp [h']⟩

theorem ren_asType {f : Id → Id'} {res : Table Id} {res' : Table Id'} {S} (hS : RenSet f res res' S) {cs : List (ChildT Id)} {cs' : List (ChildT Id')} (h : List.Forall₂ (RenChild f S) cs cs') {t : Id} (ht : S t) :
    RenT f (encCompositeAsTypeT res cs t) (encCompositeAsTypeT res' cs' (f t)) := by
  refine ren_after (skipT_ren hS ht) (fun u hu => ?_)
  have hu : S u := skipT_closed hS.wraps hu ht
  rw [hS.same u hu]
  have hc := hS.closed u
  generalize res u = d at hc
  rcases d with _ | d
  · exact ren_fail rfl
  · cases d with
    | composite fs =>
      have hf := ren_fields h (fs := fs) (fun x hx => hc _ _ hu rfl (List.mem_map_of_mem hx))
      simp only [Option.map_some, TypeDef.renumber]
      rw [ren_any h]
      cases cs.any (fun c => c.name.isSome) with
      | true => cases h <;> exact hf
      | false =>
        cases h with
        | nil => exact hf
        | cons h1 h =>
          cases h with
          | nil => exact h1.enc u hu
          | cons => exact hf
    | tuple ts =>
      have hf := ren_fields h (fs := ts.map (fun t => (⟨none, t⟩ : Field Id))) (fun x hx => by
        obtain ⟨w, hw, rfl⟩ := List.mem_map.1 hx
        exact hc _ _ hu rfl hw)
      have he : (ts.map (fun t => (⟨none, t⟩ : Field Id))).map (Field.renumber f) = (ts.map f).map (fun t => (⟨none, t⟩ : Field Id')) := by
        rw [List.map_map, List.map_map]; rfl
      rw [he] at hf
      simp only [Option.map_some, TypeDef.renumber]
      cases h with
      | nil => exact hf
      | cons h1 h =>
        cases h with
        | nil => exact h1.enc u hu
        | cons => exact hf
    | _ =>
      cases h with
      | nil => exact ren_fail rfl
      | cons h1 h =>
        cases h with
        | nil => exact h1.enc u hu
        | cons => exact ren_fail rfl

theorem ren_doEncode {f : Id → Id'} {res : Table Id} {res' : Table Id'} {S} (hS : RenSet f res res' S) {cs : List (ChildT Id)} {cs' : List (ChildT Id')} (h : List.Forall₂ (RenChild f S) cs cs') {t : Id} (ht : S t) :
    RenT f (doEncodeCompositeT res cs t) (doEncodeCompositeT res' cs' (f t)) := by
  have hca := ren_asType hS h ht
  unfold doEncodeCompositeT
  rw [hS.same t ht]
  have hc := hS.closed t
  generalize res t = d at hc
  rcases d with _ | d
  · cases h with
    | nil => exact ren_fail rfl
    | cons h1 h =>
      cases h with
      | nil => exact h1.enc t ht
      | cons => exact ren_fail rfl
  · cases d with
    | composite fs => exact hca
    | tuple ts => exact hca
    | sequence u =>
      simp only [Option.map_some, TypeDef.renumber]
      rw [← h.length_eq]
      exact ren_seq (ren_write f _) (ren_items (hc _ _ ht rfl (by simp [TypeDef.mentions])) h 0)
    | array u n =>
      simp only [Option.map_some, TypeDef.renumber]
      rw [← h.length_eq]
      split
      · exact ren_fail rfl
      · exact ren_items (hc _ _ ht rfl (by simp [TypeDef.mentions])) h 0
    | bitSequence s o =>
      simp only [Option.map_some, TypeDef.renumber]
      rcases ren_bools h 0 with ⟨bs, h, h'⟩ | ⟨p, h, h'⟩
      · simp only [h, h']; exact ren_write f _
      · simp only [h, h']; exact ren_ret (fun _ => rfl)
    | _ =>
      cases h with
      | nil => exact ren_fail rfl
      | cons h1 h =>
        cases h with
        | nil => exact h1.enc t ht
        | cons => exact ren_fail rfl

theorem ren_last {f : Id → Id'} {S : Id → Prop} {cs : List (ChildT Id)} {cs' : List (ChildT Id')} (h : List.Forall₂ (RenChild f S) cs cs') {t : Id} (ht : S t) (e : EErr Id) :
    RenT f (encLastT cs t e) (encLastT cs' (f t) ⟨e.path, e.kind.renumber f⟩) := by
  intro out
  cases h with
  | nil => rfl
  | @cons c c' cs cs' h1 h =>
    cases h with
    | cons => rfl
    | nil =>
      simp only [encLastT, h1.enc t ht []]
      rcases c.enc t [] with _ | ⟨_ | _, o⟩ <;> rfl

theorem ren_composite {f : Id → Id'} {res : Table Id} {res' : Table Id'} {S} (hS : RenSet f res res' S) {cs : List (ChildT Id)} {cs' : List (ChildT Id')} (h : List.Forall₂ (RenChild f S) cs cs') {t : Id} (ht : S t) :
    RenT f (encCompositeT res cs t) (encCompositeT res' cs' (f t)) := by
  intro out
  rw [encCompositeT, encCompositeT, ren_doEncode hS h ht []]
  rcases doEncodeCompositeT res cs t [] with _ | ⟨e | _, o⟩
  · rfl
  · simp only [Option.map_some, encRenumber]
    rw [findSingleT_ren hS ht]
    cases hp : findSingleT res t with
    | none => rfl
    | some p =>
      have hu : S p.1 := findSingleT_closed hS.wraps hp ht
      obtain ⟨u, b⟩ := p
      cases b with
      | false => exact ren_last h ht e out
      | true =>
        simp only [Option.map_some]
        rw [ren_doEncode hS h hu []]
        rcases doEncodeCompositeT res cs u [] with _ | ⟨e' | _, o⟩
        · rfl
        · exact ren_last h hu e out
        · rfl
  · rfl

theorem ren_variant {f : Id → Id'} {res : Table Id} {res' : Table Id'} {S} (hS : RenSet f res res' S) {cs : List (ChildT Id)} {cs' : List (ChildT Id')} (h : List.Forall₂ (RenChild f S) cs cs') {t : Id} (ht : S t) (name : Str) :
    RenT f (encVariantT res name cs t) (encVariantT res' name cs' (f t)) := by
  refine ren_after (findSingleT_ren hS ht) (fun p hp => ?_)
  have hu : S p.1 := findSingleT_closed hS.wraps hp ht
  simp only
  rw [hS.same _ hu]
  have hc := hS.closed p.1
  generalize res p.1 = d at hc
  rcases d with _ | d
  · exact ren_fail rfl
  · cases d with
    | variant ds =>
      simp only [Option.map_some, TypeDef.renumber, List.find?_map]
      rw [show ((fun d : VariantDef Id' => d.name == name) ∘ VariantDef.renumber f) = (fun d : VariantDef Id => d.name == name) from rfl]
      cases hd : ds.find? (fun d => d.name == name) with
      | none => exact ren_fail rfl
      | some d =>
        refine ren_seq (ren_write f _) (ren_fields h (fun x hx => hc _ _ hu rfl ?_))
        rw [TypeDef.mentions, List.mem_flatten]
        exact ⟨_, List.mem_map_of_mem (List.mem_of_find?_eq_some hd), List.mem_map_of_mem hx⟩
    | _ => exact ren_fail rfl

theorem ren_uint {f : Id → Id'} {t : Id} {k : Nat} {n : Int} : RenT f (.ret (encUintK t k n)) (.ret (encUintK (f t) k n)) := by
  unfold encUintK; split
  · exact ren_write f _
  · exact ren_fail rfl
theorem ren_int {f : Id → Id'} {t : Id} {k : Nat} {n : Int} : RenT f (.ret (encIntK t k n)) (.ret (encIntK (f t) k n)) := by
  unfold encIntK; split
  · exact ren_write f _
  · exact ren_fail rfl
theorem ren_compact {f : Id → Id'} {t : Id} {k : Nat} {n : Int} : RenT f (.ret (encCompactK t k n)) (.ret (encCompactK (f t) k n)) := by
  unfold encCompactK; split
  · exact ren_write f _
  · exact ren_fail rfl

theorem ren_num {f : Id → Id'} {res : Table Id} {res' : Table Id'} {S} (hS : RenSet f res res' S) {t : Id} (ht : S t) (cc : Bool) (n : Int) :
    RenT f (encNumT res cc n t) (encNumT res' cc n (f t)) := by
  refine ren_after (findSingleT_ren hS ht) (fun p hp => ?_)
  have hu : S p.1 := findSingleT_closed hS.wraps hp ht
  simp only
  rw [hS.same _ hu]
  have hc := hS.closed p.1
  generalize res p.1 = d at hc
  rcases d with _ | d
  · exact ren_fail rfl
  · cases d with
    | primitive p =>
      cases p with
      | char =>
        simp only [Option.map_some, TypeDef.renumber]
        split
        · exact ren_uint
        · exact ren_fail rfl
      | bool => exact ren_fail rfl
      | str => exact ren_fail rfl
      | u256 => exact ren_fail rfl
      | i256 => exact ren_fail rfl
      | i8 => exact ren_int
      | i16 => exact ren_int
      | i32 => exact ren_int
      | i64 => exact ren_int
      | i128 => exact ren_int
      | _ => exact ren_uint
    | compact w =>
      have hw : S w := hc _ _ hu rfl (by simp [TypeDef.mentions])
      refine ren_after (findSingleT_ren hS hw) (fun q hq => ?_)
      have hv : S q.1 := findSingleT_closed hS.wraps hq hw
      simp only
      rw [hS.same _ hv]
      generalize res q.1 = d
      rcases d with _ | d
      · exact ren_fail rfl
      · cases d with
        | primitive r => cases r <;> first | exact ren_compact | exact ren_fail rfl
        | _ => exact ren_fail rfl
    | _ => exact ren_fail rfl

theorem ren_bool {f : Id → Id'} {res : Table Id} {res' : Table Id'} {S} (hS : RenSet f res res' S) {t : Id} (ht : S t) (b : Bool) :
    RenT f (encBoolT res b t) (encBoolT res' b (f t)) := by
  refine ren_after (findSingleT_ren hS ht) (fun p hp => ?_)
  simp only
  rw [hS.same _ (findSingleT_closed hS.wraps hp ht)]
  rcases res p.1 with _ | d
  · exact ren_fail rfl
  · cases d with
    | primitive r => cases r <;> first | exact ren_write f _ | exact ren_fail rfl
    | _ => exact ren_fail rfl

theorem ren_str {f : Id → Id'} {res : Table Id} {res' : Table Id'} {S} (hS : RenSet f res res' S) {t : Id} (ht : S t) (s : Str) :
    RenT f (encStrT res s t) (encStrT res' s (f t)) := by
  refine ren_after (findSingleT_ren hS ht) (fun p hp => ?_)
  simp only
  rw [hS.same _ (findSingleT_closed hS.wraps hp ht)]
  rcases res p.1 with _ | d
  · exact ren_fail rfl
  · cases d with
    | primitive r => cases r <;> first | exact ren_write f _ | exact ren_fail rfl
    | _ => exact ren_fail rfl

theorem ren_bits {f : Id → Id'} {res : Table Id} {res' : Table Id'} {S} (hS : RenSet f res res' S) {t : Id} (ht : S t) (b : List Bool) :
    RenT f (encBitsT res b t) (encBitsT res' b (f t)) := by
  refine ren_after (findSingleT_ren hS ht) (fun p hp => ?_)
  simp only
  rw [hS.same _ (findSingleT_closed hS.wraps hp ht)]
  rcases res p.1 with _ | d
  · exact ren_fail rfl
  · cases d with
    | bitSequence s o => exact ren_write f _
    | _ => exact ren_fail rfl

theorem ren_byteChildren {f : Id → Id'} {res : Table Id} {res' : Table Id'} {S} (hS : RenSet f res res' S) (bs : List UInt8) :
    List.Forall₂ (RenChild f S) (byteChildrenT res bs) (byteChildrenT res' bs) := by
  induction bs with
  | nil => exact .nil
  | cons b bs ih => exact .cons ⟨rfl, rfl, fun u hu => ren_num hS hu false _⟩ ih

theorem ren_bytesN {f : Id → Id'} {res : Table Id} {res' : Table Id'} {S} (hS : RenSet f res res' S) (bs : List UInt8) : ∀ n u, S u →
    RenT f (encBytesTN res bs n u) (encBytesTN res' bs n (f u)) := by
  intro n
  induction n with
  | zero => intro u _ out; rfl
  | succ n ih =>
    intro u hu
    rw [encBytesTN, encBytesTN, hS.same u hu]
    have hc := hS.closed u
    generalize res u = d at hc
    rcases d with _ | d
    · exact ren_fail rfl
    · rcases d with fs | _ | w | ⟨w, k⟩ | ts | _ | _ | _
      case composite =>
        rcases fs with _ | ⟨x, _ | ⟨x', fs⟩⟩
        · exact ren_fail rfl
        · exact ih _ (hc _ _ hu rfl (by simp [TypeDef.mentions]))
        · exact ren_fail rfl
      case tuple =>
        rcases ts with _ | ⟨w, _ | ⟨w', ts⟩⟩
        · exact ren_fail rfl
        · exact ih _ (hc _ _ hu rfl (by simp [TypeDef.mentions]))
        · exact ren_fail rfl
      case array =>
        simp only [Option.map_some, TypeDef.renumber]
        split
        · exact ren_fail rfl
        · exact ren_items (hc _ _ hu rfl (by simp [TypeDef.mentions])) (ren_byteChildren hS bs) 0
      case sequence => exact ren_seq (ren_write f _) (ren_items (hc _ _ hu rfl (by simp [TypeDef.mentions])) (ren_byteChildren hS bs) 0)
      all_goals exact ren_fail rfl

theorem ren_bytes {f : Id → Id'} {res : Table Id} {res' : Table Id'} {S} (hS : RenSet f res res' S) (bs : List UInt8) {t : Id} (ht : S t) :
    RenT f (encBytesT res bs t) (encBytesT res' bs (f t)) := by
  intro out
  unfold encBytesT
  rw [← limit_map _ (fun n m r h => encBytesTN_mono res bs n m t out r h)]
  congr 1
  funext n
  exact ren_bytesN hS bs n t ht out

theorem ren_primitive {f : Id → Id'} {res : Table Id} {res' : Table Id'} {S} (hS : RenSet f res res' S) (cc : Bool) (p : Primitive) {t : Id} (ht : S t) :
    RenT f (encPrimitiveT res cc p t) (encPrimitiveT res' cc p (f t)) := by
  cases p with
  | bool b => exact ren_bool hS ht b
  | char c => exact ren_num hS ht cc _
  | string s => exact ren_str hS ht s
  | u128 n => exact ren_num hS ht false _
  | i128 n => exact ren_num hS ht false _
  | u256 b => exact ren_bytes hS _ ht
  | i256 b => exact ren_bytes hS _ ht

mutual
theorem ren_value {f : Id → Id'} {res : Table Id} {res' : Table Id'} {S} (hS : RenSet f res res' S) (cc : Bool) : ∀ (v : Value Γ) {t : Id}, S t →
    RenT f (v.encodeT res cc t) (v.encodeT res' cc (f t))
  | .mk (.composite c) _, _, ht => ren_composite hS (ren_children hS cc c) ht
  | .mk (.variant (.mk n c)) _, _, ht => ren_variant hS (ren_children hS cc c) ht n
  | .mk (.primitive p) _, _, ht => ren_primitive hS cc p ht
  | .mk (.bitSequence b) _, _, ht => ren_bits hS ht b
theorem ren_children {f : Id → Id'} {res : Table Id} {res' : Table Id'} {S} (hS : RenSet f res res' S) (cc : Bool) : ∀ (c : Composite Γ),
    List.Forall₂ (RenChild f S) (c.encChildrenT res cc) (c.encChildrenT res' cc)
  | .named fs => ren_named hS cc fs
  | .unnamed vs => ren_unnamed hS cc vs
theorem ren_named {f : Id → Id'} {res : Table Id} {res' : Table Id'} {S} (hS : RenSet f res res' S) (cc : Bool) : ∀ (fs : List (Str × Value Γ)),
    List.Forall₂ (RenChild f S) (encNamedT res cc fs) (encNamedT res' cc fs)
  | [] => .nil
  | (_, v) :: r => .cons ⟨rfl, rfl, fun _ hu => ren_value hS cc v hu⟩ (ren_named hS cc r)
theorem ren_unnamed {f : Id → Id'} {res : Table Id} {res' : Table Id'} {S} (hS : RenSet f res res' S) (cc : Bool) : ∀ (vs : List (Value Γ)),
    List.Forall₂ (RenChild f S) (encUnnamedT res cc vs) (encUnnamedT res' cc vs)
  | [] => .nil
  | v :: r => .cons ⟨rfl, rfl, fun _ hu => ren_value hS cc v hu⟩ (ren_unnamed hS cc r)
end

end SV
