import Verif.Spec.Buffer
import Verif.Proofs.DocRefused
/-
Proofs about serde's buffer.
-/
namespace SV

variable {T : Type}

/-- The outcome of copying a document. -/
def CopyOutcome (doc : Doc) (r : Option Content) : Prop :=
  (∃ c, r = some c ∧ c.doc = doc ∧ ∀ x, doc.Has x → ¬ x.Unheld) ∨ (r = none ∧ ∃ x, doc.Has x ∧ x.Unheld)

theorem Doc.has_leaf {x y : Doc} (h : x.Has y) (h1 : ∀ z, x ≠ .some z) (h2 : ∀ z, x ≠ .newtype z) (h3 : ∀ z, x ≠ .seq z) (h4 : ∀ z, x ≠ .map z) : y = x := by
  cases h with
  | here => rfl
  | some => exact (h1 _ rfl).elim
  | newtype => exact (h2 _ rfl).elim
  | seq => exact (h3 _ rfl).elim
  | key => exact (h4 _ rfl).elim
  | val => exact (h4 _ rfl).elim

theorem copy_leaf {doc : Doc} {c : Content} (hc : c.doc = doc) (h1 : ∀ z, doc ≠ .some z) (h2 : ∀ z, doc ≠ .newtype z) (h3 : ∀ z, doc ≠ .seq z) (h4 : ∀ z, doc ≠ .map z)
    (h5 : ¬ doc.Unheld) : CopyOutcome doc (some c) :=
  .inl ⟨c, rfl, hc, fun x hx => by rw [Doc.has_leaf hx h1 h2 h3 h4]; exact h5⟩

theorem deContent_ask {d : Der} : deContent d = deBuf (d.ask .any) := by
  obtain ⟨f⟩ := d
  rfl

theorem bits128 {t : NumTy} : (t = .u128 ∨ t = .i128) ↔ t.bits = 128 := by cases t <;> decide

theorem copies_list {strict : Bool} {ds : List Der} {xs : List Doc} (h : List.Forall₂ (Shows strict) ds xs)
    (ih : ∀ x ∈ xs, ∀ d, Shows strict d x → CopyOutcome x (deContent d)) :
    (∃ cs, deContents ds = some cs ∧ contentDocs cs = xs ∧ ∀ x ∈ xs, ∀ y, x.Has y → ¬ y.Unheld) ∨ (deContents ds = none ∧ ∃ x ∈ xs, ∃ y, x.Has y ∧ y.Unheld) := by
  induction h with
  | nil => exact .inl ⟨[], rfl, rfl, fun x hx => by cases hx⟩
  | @cons d x ds xs h1 _ ih2 =>
    rcases ih x List.mem_cons_self d h1 with ⟨c, e1, e2, e3⟩ | ⟨e1, y, hy⟩
    · rcases ih2 (fun x hx => ih x (List.mem_cons_of_mem _ hx)) with ⟨cs, f1, f2, f3⟩ | ⟨f1, y, hm, hy⟩
      · refine .inl ⟨c :: cs, by simp [deContents, e1, f1], by simp [contentDocs, e2, f2], ?_⟩
        intro z hz
        cases hz with
        | head => exact e3
        | tail _ hz => exact f3 z hz
      · exact .inr ⟨by simp [deContents, e1, f1], y, List.mem_cons_of_mem _ hm, hy⟩
    · exact .inr ⟨by simp [deContents, e1], x, List.mem_cons_self, y, hy⟩

theorem copies_entries {strict : Bool} {ds : List (Der × Der)} {xs : List (Doc × Doc)} (h : List.Forall₂ (fun e x => Shows strict e.1 x.1 ∧ Shows strict e.2 x.2) ds xs)
    (ih : ∀ x ∈ xs, (∀ d, Shows strict d x.1 → CopyOutcome x.1 (deContent d)) ∧ (∀ d, Shows strict d x.2 → CopyOutcome x.2 (deContent d))) :
    (∃ cs, deContentEntries ds = some cs ∧ contentPairs cs = xs ∧ ∀ x ∈ xs, ∀ y, x.1.Has y ∨ x.2.Has y → ¬ y.Unheld) ∨
      (deContentEntries ds = none ∧ ∃ x ∈ xs, ∃ y, (x.1.Has y ∨ x.2.Has y) ∧ y.Unheld) := by
  induction h with
  | nil => exact .inl ⟨[], rfl, rfl, fun x hx => by cases hx⟩
  | @cons d x ds xs h1 _ ih2 =>
    obtain ⟨dk, dv⟩ := d
    rcases (ih x List.mem_cons_self).1 _ h1.1 with ⟨k, k1, k2, k3⟩ | ⟨e1, y, hy⟩
    · rcases (ih x List.mem_cons_self).2 _ h1.2 with ⟨c, e1, e2, e3⟩ | ⟨e1, y, hy⟩
      · rcases ih2 (fun x hx => ih x (List.mem_cons_of_mem _ hx)) with ⟨cs, f1, f2, f3⟩ | ⟨f1, y, hm, hy⟩
        · refine .inl ⟨(k, c) :: cs, by simp only at k1 e1; simp [deContentEntries, k1, e1, f1], by simp [contentPairs, k2, e2, f2], ?_⟩
          intro z hz
          cases hz with
          | head => rintro y (hy | hy); exacts [k3 y hy, e3 y hy]
          | tail _ hz => exact f3 z hz
        · exact .inr ⟨by simp only at k1 e1; simp [deContentEntries, k1, e1, f1], y, List.mem_cons_of_mem _ hm, hy⟩
      · exact .inr ⟨by simp only at k1 e1; simp [deContentEntries, k1, e1], x, List.mem_cons_self, y, .inr hy.1, hy.2⟩
    · exact .inr ⟨by simp only at e1; simp [deContentEntries, e1], x, List.mem_cons_self, y, .inl hy.1, hy.2⟩

theorem copy_shows {strict : Bool} : ∀ (doc : Doc) (d : Der), Shows strict d doc → CopyOutcome doc (deContent d)
  | .unit, d, h => by
    cases h with | unit h => rw [deContent_ask, h .any trivial]; exact copy_leaf rfl (by nofun) (by nofun) (by nofun) (by nofun) (by nofun)
  | .bool b, d, h => by
    cases h with | bool h => rw [deContent_ask, h .any trivial]; exact copy_leaf rfl (by nofun) (by nofun) (by nofun) (by nofun) (by nofun)
  | .num n, d, h => by
    cases h with
    | num h =>
      rw [deContent_ask, h .any trivial, deBuf]
      by_cases hn : n.ty = .u128 ∨ n.ty = .i128
      · rw [if_pos hn]
        exact .inr ⟨rfl, _, .here _, .num (bits128.1 hn)⟩
      · rw [if_neg hn]
        refine copy_leaf rfl (by nofun) (by nofun) (by nofun) (by nofun) ?_
        intro hu
        cases hu with
        | num hb => exact hn (bits128.2 hb)
  | .float, d, h => by
    cases h with | float h => rw [deContent_ask, h .any trivial]; exact copy_leaf rfl (by nofun) (by nofun) (by nofun) (by nofun) (by nofun)
  | .char c, d, h => by
    cases h with | char h => rw [deContent_ask, h .any trivial]; exact copy_leaf rfl (by nofun) (by nofun) (by nofun) (by nofun) (by nofun)
  | .str s, d, h => by
    cases h with | str h => rw [deContent_ask, h .any trivial]; exact copy_leaf rfl (by nofun) (by nofun) (by nofun) (by nofun) (by nofun)
  | .bytes bs, d, h => by
    cases h with | bytes h => rw [deContent_ask, h .any trivial]; exact copy_leaf rfl (by nofun) (by nofun) (by nofun) (by nofun) (by nofun)
  | .none, d, h => by
    cases h with | none h => rw [deContent_ask, h .any trivial]; exact copy_leaf rfl (by nofun) (by nofun) (by nofun) (by nofun) (by nofun)
  | .some x, d, h => by
    cases h with
    | @some _ e _ h sub =>
      rw [deContent_ask, h .any trivial, deBuf]
      rcases copy_shows x e sub with ⟨c, e1, e2, e3⟩ | ⟨e1, y, hy⟩
      · rw [e1]
        refine .inl ⟨.some c, rfl, by simp [Content.doc, e2], ?_⟩
        intro y hy
        cases hy with
        | here => nofun
        | some h => exact e3 y h
      · rw [e1]
        exact .inr ⟨rfl, y, .some hy.1, hy.2⟩
  | .newtype x, d, h => by
    cases h with
    | @newtype _ e _ h sub =>
      rw [deContent_ask, h .any trivial, deBuf]
      rcases copy_shows x e sub with ⟨c, e1, e2, e3⟩ | ⟨e1, y, hy⟩
      · rw [e1]
        refine .inl ⟨.newtype c, rfl, by simp [Content.doc, e2], ?_⟩
        intro y hy
        cases hy with
        | here => nofun
        | newtype h => exact e3 y h
      · rw [e1]
        exact .inr ⟨rfl, y, .newtype hy.1, hy.2⟩
  | .seq xs, d, h => by
    obtain ⟨ds, h1, h2⟩ := shows_seq h
    rw [deContent_ask, h1 .any trivial, deBuf]
    rcases copies_list h2 (fun x hx d hd => copy_shows x d hd) with ⟨cs, e1, e2, e3⟩ | ⟨e1, x, hx, y, hy⟩
    · rw [e1]
      refine .inl ⟨.seq cs, rfl, by simp [Content.doc, e2], ?_⟩
      intro y hy
      cases hy with
      | here => nofun
      | seq hm h => exact e3 _ hm y h
    · rw [e1]
      exact .inr ⟨rfl, y, .seq hx hy.1, hy.2⟩
  | .map es, d, h => by
    obtain ⟨ds, h1, h2⟩ := shows_map h
    rw [deContent_ask, h1 .any trivial, deBuf]
    rcases copies_entries h2 (fun ⟨k, x⟩ he => ⟨fun d hd => copy_shows k d hd, fun d hd => copy_shows x d hd⟩) with ⟨cs, e1, e2, e3⟩ | ⟨e1, x, hx, y, hy⟩
    · rw [e1]
      refine .inl ⟨.map cs, rfl, by simp [Content.doc, e2], ?_⟩
      intro y hy
      cases hy with
      | here => nofun
      | key hm h => exact e3 _ hm y (.inl h)
      | val hm h => exact e3 _ hm y (.inr h)
    · rw [e1]
      rcases hy.1 with h | h
      · exact .inr ⟨rfl, y, .key hx h, hy.2⟩
      · exact .inr ⟨rfl, y, .val hx h, hy.2⟩
  | .enum x y, d, h => by
    cases h with
    | enum h _ _ => rw [deContent_ask, h .any trivial]; exact .inr ⟨rfl, _, .here _, .enum⟩
  | .bad m, d, h => by
    cases h with
    | bad h => rw [deContent_ask, h .any trivial]; exact .inr ⟨rfl, _, .here _, .bad⟩
termination_by doc => sizeOf doc
decreasing_by
  all_goals first
    | decreasing_tactic
    | (simp only [Doc.map.sizeOf_spec]; have := List.sizeOf_lt_of_mem he; simp only [Prod.mk.sizeOf_spec] at this; omega)

/-! ### Reading from the buffer -/

theorem string_content {c : Content} (h : ∀ x, c ≠ .char x) : deString c.der = deString (c.doc.der true) := by
  cases c with
  | char x => exact (h x rfl).elim
  | _ => rfl

theorem bool_content (c : Content) : deBool c.der = deBool (c.doc.der true) := by
  cases c <;> rfl

theorem num_content (t : NumTy) (c : Content) : deNum t c.der = deNum t (c.doc.der true) := by
  cases c <;> rfl

theorem all_content {A : Type} {f : Der → Option A} (h : ∀ c : Content, f c.der = f (c.doc.der true)) (cs : List Content) :
    allOf f (contentDers cs) = allOf f (docDers true (contentDocs cs)) := by
  induction cs with
  | nil => rfl
  | cons c cs ih => simp only [contentDers, contentDocs, docDers, allOf, h c, ih]

theorem bools_content (c : Content) : deVec deBool c.der = deVec deBool (c.doc.der true) := by
  cases c with
  | seq cs => exact all_content bool_content cs
  | _ => rfl

mutual
theorem value_content : ∀ c : Content, NoCharKeys c.doc → deValue c.der = deValue (c.doc.der true)
  | .bool _, _ => rfl
  | .num _, _ => rfl
  | .float, _ => rfl
  | .char _, _ => rfl
  | .str _, _ => rfl
  | .bytes _, _ => rfl
  | .unit, _ => rfl
  | .none, _ => rfl
  | .some c, h => by
    have := value_content c (fun es k x hh => h es k x (.some hh))
    simp only [Content.doc, Content.der, Doc.der, deValue, deDef, this]
  | .newtype c, h => by
    have := value_content c (fun es k x hh => h es k x (.newtype hh))
    simp only [Content.doc, Content.der, Doc.der, deValue, deDef, this]
  | .seq cs, h => by
    have := values_content cs (fun y hy es k x hh => h es k x (.seq hy hh))
    simp only [Content.doc, Content.der, Doc.der, deValue, deDef, this]
  | .map [], h => rfl
  | .map ((k, c) :: es), h => by
    have h1 := entries_content es (fun y hy => ⟨fun x => h _ y.1 y.2 (.here _) (List.mem_cons_of_mem _ hy) x, fun es' k' x' hh => h es' k' x' (.val (List.mem_cons_of_mem _ hy) hh)⟩)
    have h2 := value_content c (fun es' k' x' hh => h es' k' x' (.val (e := (k.doc, c.doc)) List.mem_cons_self hh))
    have h3 : deString k.der = deString (k.doc.der true) := string_content (fun x hx => h _ k.doc c.doc (.here _) List.mem_cons_self x (by rw [hx]; rfl))
    have h4 := bools_content c
    simp only [Content.doc, Content.der, Doc.der, contentPairs, contentEntries, docEntries, deValue, deDef, h1, h2, h3, h4]
    have : (contentEntries es ≠ []) ↔ (docEntries true (contentPairs es) ≠ []) := by
      cases es <;> simp [contentEntries, contentPairs, docEntries]
    simp only [this]
theorem values_content : ∀ cs : List Content, (∀ y ∈ contentDocs cs, NoCharKeys y) → deValues (contentDers cs) = deValues (docDers true (contentDocs cs))
  | [], _ => rfl
  | c :: cs, h => by
    have h1 := value_content c (h _ List.mem_cons_self)
    have h2 := values_content cs (fun y hy => h y (List.mem_cons_of_mem _ hy))
    simp only [contentDers, contentDocs, docDers, deValues, h1, h2]
theorem entries_content : ∀ es : List (Content × Content), (∀ y ∈ contentPairs es, (∀ c, y.1 ≠ .char c) ∧ NoCharKeys y.2) →
    deEntries (contentEntries es) = deEntries (docEntries true (contentPairs es))
  | [], _ => rfl
  | (k, c) :: es, h => by
    have h1 := value_content c (h (k.doc, c.doc) List.mem_cons_self).2
    have h2 := entries_content es (fun y hy => h y (List.mem_cons_of_mem _ hy))
    have h3 : deString k.der = deString (k.doc.der true) := string_content (fun x hx => (h (k.doc, c.doc) List.mem_cons_self).1 x (by rw [hx]; rfl))
    simp only [contentEntries, contentPairs, docEntries, deEntries, h1, h2, h3]
end

theorem composite_content : ∀ c : Content, NoCharKeys c.doc → deComposite c.der = deComposite (c.doc.der true)
  | .bool _, _ => rfl
  | .num _, _ => rfl
  | .float, _ => rfl
  | .char _, _ => rfl
  | .str _, _ => rfl
  | .bytes _, _ => rfl
  | .unit, _ => rfl
  | .none, _ => rfl
  | .some c, h => rfl
  | .newtype c, h => by
    have := composite_content c (fun es k x hh => h es k x (.newtype hh))
    simp only [Content.doc, Content.der, Doc.der, deComposite, deComp, this]
  | .seq cs, h => by
    have := values_content cs (fun y hy es k x hh => h es k x (.seq hy hh))
    simp only [Content.doc, Content.der, Doc.der, deComposite, deComp, this]
  | .map es, h => by
    have := entries_content es (fun y hy => ⟨fun x => h _ y.1 y.2 (.here _) hy x, fun es' k' x' hh => h es' k' x' (.val hy hh)⟩)
    simp only [Content.doc, Content.der, Doc.der, deComposite, deComp, this]

theorem primitive_content (c : Content) : dePrimitive c.der = dePrimitive (c.doc.der true) := by
  cases c with
  | seq cs =>
    have := all_content (num_content .u8) cs
    simp only [Content.doc, Content.der, Doc.der, dePrimitive, Der.visit, Der.ask, this]
  | _ => rfl

/-! ### Values in the buffer -/

theorem contents_forall {ds : List Der} {cs : List Content} : deContents ds = some cs ↔ List.Forall₂ (fun d c => deContent d = some c) ds cs := by
  induction ds generalizing cs with
  | nil => cases cs <;> simp [deContents]
  | cons d ds ih =>
    rw [deContents]
    cases hd : deContent d with
    | none => cases cs <;> simp [hd]
    | some v =>
      cases hds : deContents ds with
      | none =>
        cases cs with
        | nil => simp
        | cons w ws => simp [hd, ← ih, hds]
      | some us =>
        cases cs with
        | nil => simp
        | cons w ws => simp [hd, ← ih, hds]

theorem contentEntries_forall {ds : List (Der × Der)} {fs : List (Content × Content)} :
    deContentEntries ds = some fs ↔ List.Forall₂ (fun d f => deContent d.1 = some f.1 ∧ deContent d.2 = some f.2) ds fs := by
  induction ds generalizing fs with
  | nil => cases fs <;> simp [deContentEntries]
  | cons d ds ih =>
    obtain ⟨k, x⟩ := d
    rw [deContentEntries]
    cases hk : deContent k with
    | none => cases fs <;> simp [hk]
    | some key =>
      cases hx : deContent x with
      | none => cases fs <;> simp [hk, hx]
      | some v =>
        cases hds : deContentEntries ds with
        | none => cases fs <;> simp [hk, hx, ← ih, hds]
        | some us =>
          cases fs with
          | nil => simp
          | cons w ws =>
            obtain ⟨a, b⟩ := w
            simp [hk, hx, ← ih, hds, and_assoc]

theorem deContents_bools (bs : List Bool) : deContents (bs.map boolDer) = some (bs.map .bool) := by
  induction bs with
  | nil => rfl
  | cons b bs ih => simp only [List.map_cons, deContents, ih]; rfl

theorem forall₂_map_left' {A B C : Type} {R : B → C → Prop} {f : A → B} {as : List A} {cs : List C} :
    List.Forall₂ R (as.map f) cs ↔ List.Forall₂ (fun a c => R (f a) c) as cs := by
  induction as generalizing cs with
  | nil => cases cs <;> simp
  | cons a as ih => cases cs with
    | nil => simp
    | cons c cs => simp [ih]

theorem forall₂_congr_mem {A B : Type} {P Q : A → B → Prop} {as : List A} {bs : List B} (h : ∀ a ∈ as, ∀ b, P a b ↔ Q a b) : List.Forall₂ P as bs ↔ List.Forall₂ Q as bs := by
  induction as generalizing bs with
  | nil => cases bs <;> simp
  | cons a as ih => cases bs with
    | nil => simp
    | cons b bs => rw [List.forall₂_cons, List.forall₂_cons, h a List.mem_cons_self, ih (fun a ha => h a (List.mem_cons_of_mem _ ha))]

theorem copies_named_iff {fs : List (Str × Value T)} {es : List (Content × Content)} {c : T} :
    Copies (.mk (.composite (.named fs)) c) (.map es) ↔ List.Forall₂ (fun (f : Str × Value T) (e : Content × Content) => e.1 = .str f.1 ∧ Copies f.2 e.2) fs es := by
  have key : ∀ (fs : List (Str × Value T)) (es : List (Content × Content)),
      es.map (fun e => e.1) = fs.map (fun f => .str f.1) ↔ List.Forall₂ (fun (f : Str × Value T) (e : Content × Content) => e.1 = .str f.1) fs es := by
    intro fs
    induction fs with
    | nil => intro es; cases es <;> simp
    | cons f fs ih => intro es; cases es with
      | nil => simp
      | cons e es => simp [ih]
  constructor
  · intro h
    cases h with
    | named names sub =>
      obtain ⟨h1, h2⟩ := pointwise_forall₂.2 ((key _ _).1 names)
      exact pointwise_forall₂.1 ⟨h1, fun i x y a b => ⟨h2 i x y a b, sub i x y a b⟩⟩
  · intro h
    obtain ⟨h1, h2⟩ := pointwise_forall₂.2 h
    exact .named ((key _ _).2 (pointwise_forall₂.1 ⟨h1, fun i x y a b => (h2 i x y a b).1⟩)) (fun i x y a b => (h2 i x y a b).2)

theorem copies_iff : ∀ (v : Value T) (c : Content), deContent v.der = some c ↔ Copies v c
  | .mk (.primitive p) c0, c => by
    have h : deContent (Value.mk (.primitive p) c0).der = deBuf p.any := by cases p <;> rfl
    rw [h]
    cases p with
    | bool b | char b | string b =>
      simp only [Primitive.any, deBuf, Option.some.injEq]
      constructor
      · rintro rfl; constructor
      · intro h; cases h; rfl
    | u256 b | i256 b =>
      simp only [Primitive.any, deBuf, Option.some.injEq]
      constructor
      · rintro rfl; constructor
      · intro h; cases h; rfl
    | u128 n | i128 n =>
      simp only [Primitive.any, deBuf]
      constructor
      · simp
      · intro h; cases h
  | .mk (.bitSequence b) c0, c => by
    have h : deContent (Value.mk (.bitSequence b) c0).der = some (.map [(.str bitIdent, .seq (b.map .bool))]) := by
      show deBuf (bitsReply b) = _
      simp only [bitsReply, deBuf, deContentEntries, strDer, boolsDer, deContent, deContents_bools]
    rw [h]
    simp only [Option.some.injEq]
    constructor
    · rintro rfl; exact .bits
    · intro h; cases h; rfl
  | .mk (.variant (.mk n f)) c0, c => by
    constructor
    · intro h; cases h
    · intro h; cases h
  | .mk (.composite (.unnamed vs)) c0, c => by
    have h : deContent (Value.mk (.composite (.unnamed vs)) c0).der = deBuf (.seq false (valDers vs)) := rfl
    rw [h, deBuf]
    have key : ∀ cs, deContents (valDers vs) = some cs ↔ List.Forall₂ Copies vs cs := by
      intro cs
      rw [contents_forall, valDers_eq, forall₂_map_left']
      exact forall₂_congr_mem (fun a ha b => copies_iff a b)
    constructor
    · intro h
      cases hc : deContents (valDers vs) with
      | none => rw [hc] at h; cases h
      | some cs =>
        rw [hc] at h; cases h
        obtain ⟨h1, h2⟩ := pointwise_forall₂.2 ((key cs).1 hc)
        exact .unnamed h1 h2
    · intro h
      cases h with
      | unnamed len sub => rw [(key _).2 (pointwise_forall₂.1 ⟨len, sub⟩)]
  | .mk (.composite (.named fs)) c0, c => by
    have h : deContent (Value.mk (.composite (.named fs)) c0).der = deBuf (.map false (fieldDers fs)) := rfl
    rw [h, deBuf]
    have key : ∀ es, deContentEntries (fieldDers fs) = some es ↔ Copies (.mk (.composite (.named fs)) c0) (.map es) := by
      intro es
      rw [copies_named_iff, contentEntries_forall, fieldDers_eq, forall₂_map_left']
      refine forall₂_congr_mem (fun a ha b => ?_)
      have hk : deContent (strDer a.1) = some (.str a.1) := rfl
      rw [hk]
      have := copies_iff a.2 b.2
      simp only [this, Option.some.injEq]
      constructor
      · rintro ⟨h1, h2⟩; exact ⟨h1.symm, h2⟩
      · rintro ⟨h1, h2⟩; exact ⟨h1.symm, h2⟩
    constructor
    · intro h
      cases hc : deContentEntries (fieldDers fs) with
      | none => rw [hc] at h; cases h
      | some cs =>
        rw [hc] at h; cases h
        exact (key cs).1 hc
    · intro h
      cases h with
      | named names sub => rw [(key _).2 (.named names sub)]
termination_by v => sizeOf v
decreasing_by
  all_goals first
    | decreasing_tactic
    | (have := List.sizeOf_lt_of_mem ha; obtain ⟨a1, a2⟩ := a; simp only [Prod.mk.sizeOf_spec] at this; simp only [Value.mk.sizeOf_spec, ValueDef.composite.sizeOf_spec, Composite.named.sizeOf_spec]; omega)
    | (have := List.sizeOf_lt_of_mem ha; simp only [Value.mk.sizeOf_spec, ValueDef.composite.sizeOf_spec, Composite.unnamed.sizeOf_spec]; omega)

/-- A value is copied or has something that is not held. -/
theorem copied_or : ∀ v : Value T, (∃ c, Copies v c) ∨ ∃ w, v.Has w ∧ w.Unheld
  | .mk (.primitive p) c0 => by
    cases p with
    | u128 n => exact .inr ⟨_, .here _, .u128⟩
    | i128 n => exact .inr ⟨_, .here _, .i128⟩
    | bool b => exact .inl ⟨_, .bool⟩
    | char b => exact .inl ⟨_, .char⟩
    | string b => exact .inl ⟨_, .string⟩
    | u256 b => exact .inl ⟨_, .u256⟩
    | i256 b => exact .inl ⟨_, .i256⟩
  | .mk (.bitSequence b) c0 => .inl ⟨_, .bits⟩
  | .mk (.variant x) c0 => .inr ⟨_, .here _, .variant⟩
  | .mk (.composite (.unnamed vs)) c0 => by
    rcases forall₂_or (P := Copies) (Q := fun v => ∃ w, v.Has w ∧ w.Unheld) vs (fun v hv => copied_or v) with ⟨cs, h⟩ | ⟨v, hv, w, h1, h2⟩
    · obtain ⟨h1, h2⟩ := pointwise_forall₂.2 h
      exact .inl ⟨_, .unnamed h1 h2⟩
    · exact .inr ⟨w, .child (u := v) hv h1, h2⟩
  | .mk (.composite (.named fs)) c0 => by
    rcases forall₂_or (P := fun (f : Str × Value T) (e : Content × Content) => e.1 = .str f.1 ∧ Copies f.2 e.2) (Q := fun f => ∃ w, f.2.Has w ∧ w.Unheld) fs
      (fun f hf => (copied_or f.2).imp (fun ⟨c, h⟩ => ⟨(.str f.1, c), rfl, h⟩) id) with ⟨cs, h⟩ | ⟨v, hv, w, h1, h2⟩
    · exact .inl ⟨_, copies_named_iff.2 h⟩
    · exact .inr ⟨w, .child (u := v.2) (List.mem_map.2 ⟨v, hv, rfl⟩) h1, h2⟩
termination_by v => sizeOf v
decreasing_by
  all_goals first
    | decreasing_tactic
    | (have := List.sizeOf_lt_of_mem hf; obtain ⟨a1, a2⟩ := f; simp only [Prod.mk.sizeOf_spec] at this; simp only [Value.mk.sizeOf_spec, ValueDef.composite.sizeOf_spec, Composite.named.sizeOf_spec]; omega)
    | (have := List.sizeOf_lt_of_mem hv; simp only [Value.mk.sizeOf_spec, ValueDef.composite.sizeOf_spec, Composite.unnamed.sizeOf_spec]; omega)

theorem copied_child {v u : Value T} (h : ∃ c, Copies v c) (hu : u ∈ v.children) : ∃ c, Copies u c := by
  obtain ⟨c, h⟩ := h
  cases h with
  | bool | char | string | u256 | i256 | bits => cases hu
  | unnamed len sub => exact forall₂_some_of_mem (pointwise_forall₂.1 ⟨len, sub⟩) hu
  | @named _ _ c0 names sub =>
    obtain ⟨f, hf, rfl⟩ := List.mem_map.1 hu
    obtain ⟨e, h1, h2⟩ := forall₂_some_of_mem (copies_named_iff.1 (.named (c := c0) names sub)) hf
    exact ⟨_, h2⟩

theorem copied_holds {v w : Value T} (hw : v.Has w) : (∃ c, Copies v c) → ¬ w.Unheld := by
  induction hw with
  | here =>
    rintro ⟨c, h⟩ hu
    cases hu <;> cases h
  | child hu _ ih => exact fun h => ih (copied_child h hu)

/-- The value read from the copy. -/
theorem deVec_contentBools (b : List Bool) : allOf deBool (contentDers (b.map .bool)) = some b := by
  induction b with
  | nil => rfl
  | cons x b ih =>
    simp only [List.map_cons, contentDers, allOf, ih]
    rfl

theorem values_copies {vs : List (Value T)} {cs : List Content} (h : List.Forall₂ (fun v c => deValue (Content.der c) = deValue v.der) vs cs) :
    deValues (contentDers cs) = deValues (valDers vs) := by
  induction h with
  | nil => rfl
  | cons h1 _ ih => simp only [contentDers, valDers, deValues, h1, ih]

theorem entries_copies {fs : List (Str × Value T)} {es : List (Content × Content)}
    (h : List.Forall₂ (fun (f : Str × Value T) (e : Content × Content) => e.1 = .str f.1 ∧ deValue (Content.der e.2) = deValue f.2.der) fs es) :
    deEntries (contentEntries es) = deEntries (fieldDers fs) := by
  induction h with
  | nil => rfl
  | @cons f e fs es h1 _ ih =>
    obtain ⟨n, v⟩ := f
    obtain ⟨k, c⟩ := e
    obtain ⟨h1, h2⟩ := h1
    simp only at h1 h2
    subst h1
    have hk : deString (Content.der (.str n)) = deString (strDer n) := rfl
    simp only [contentEntries, fieldDers, deEntries, h2, ih, hk]

theorem copies_read {v : Value T} {c : Content} (h : Copies v c) (hb : NoBitName v) : deValue c.der = deValue v.der := by
  induction h with
  | bool | char | string | u256 | i256 => rfl
  | @bits b _ =>
    rw [back_iff.2 .bits]
    have h1 : deVec deBool (Content.der (.seq (b.map .bool))) = some b := deVec_contentBools b
    have h2 : deString (Content.der (.str "__bitvec__values__".toList)) = some bitIdent := rfl
    simp only [Content.der, contentEntries, deValue, deDef]
    simp only [Content.der] at h1 h2
    rw [h1, h2]
    simp
  | @unnamed vs cs _ len sub ih =>
    have hb' : ∀ v ∈ vs, NoBitName v := by cases hb; assumption
    have := values_copies (pointwise_forall₂.1 ⟨len, fun i x y a b => ih i x y a b (hb' x (List.mem_of_getElem? a))⟩)
    show (match deDef (.seq true (contentDers cs)) with | some d => some (Value.mk d ()) | none => none) = (match deDef (.seq false (valDers vs)) with | some d => some (Value.mk d ()) | none => none)
    simp only [deDef, this]
  | @named fs es _ names sub ih =>
    have hb' : (∀ p, fs.head? = some p → p.1 ≠ "__bitvec__values__".toList) ∧ ∀ p ∈ fs, NoBitName p.2 := by cases hb; exact ⟨by assumption, by assumption⟩
    have hall : List.Forall₂ (fun (f : Str × Value T) (e : Content × Content) => e.1 = .str f.1 ∧ deValue (Content.der e.2) = deValue f.2.der) fs es := by
      obtain ⟨h1, h2⟩ := pointwise_forall₂.2 (copies_named_iff.1 (.named (c := ‹T›) names sub))
      exact pointwise_forall₂.1 ⟨h1, fun i x y a b => ⟨(h2 i x y a b).1, ih i x y a b (hb'.2 x (List.mem_of_getElem? a))⟩⟩
    show (match deDef (.map true (contentEntries es)) with | some d => some (Value.mk d ()) | none => none) = (match deDef (.map false (fieldDers fs)) with | some d => some (Value.mk d ()) | none => none)
    cases hall with
    | nil => rfl
    | @cons f e fs es h1 h2 =>
      obtain ⟨n, v⟩ := f
      obtain ⟨k, c⟩ := e
      obtain ⟨h1, h3⟩ := h1
      simp only at h1 h3
      subst h1
      have hn : n ≠ bitIdent := hb'.1 (n, v) rfl
      have e1 : deString (Content.der (.str n)) = some n := rfl
      have e2 : deString (strDer n) = some n := rfl
      simp only [contentEntries, fieldDers, deDef, e1, e2, if_neg hn, h3, entries_copies h2]

end SV
