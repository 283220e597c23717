import Verif.Spec.Doc
import Verif.Proofs.SerdePlays
import Verif.Proofs.Codec
/-
Proofs about reading documents.
-/
namespace SV

theorem shows_ask {strict : Bool} {d : Der} {doc : Doc} (h : Shows strict d doc) : ∃ r : Reply, ∀ a : Hint, a.Plain → d.ask a = r := by
  cases h with
  | unit h | bool h | num h | float h | char h | str h | bytes h | none h | some h _ | newtype h _ | seq h _ _ | map h _ _ _ | enum h _ _ | bad h => exact ⟨_, h⟩

theorem deString_shows {strict : Bool} {d : Der} {doc : Doc} (h : Shows strict d doc) {s : Str} : deString d = some s ↔ DocName doc s := by
  constructor
  · intro hs
    cases h with
    | str h => simp only [deString, Der.visit, h .str trivial, Option.some.injEq] at hs; rw [← hs]; exact .str _
    | char h => simp only [deString, Der.visit, h .str trivial, Option.some.injEq] at hs; rw [← hs]; exact .char _
    | bytes h =>
      simp only [deString, Der.visit, h .str trivial] at hs
      exact .bytes (fromUtf8_iff.1 hs).symm
    | unit h | bool h | num h | float h | none h | some h _ | newtype h _ | seq h _ _ | map h _ _ _ | enum h _ _ | bad h =>
      simp [deString, Der.visit, h .str trivial] at hs
  · intro hs
    cases hs with
    | str => cases h with | str h => simp [deString, Der.visit, h .str trivial]
    | char => cases h with | char h => simp [deString, Der.visit, h .str trivial]
    | bytes hb => cases h with | bytes h => simp only [deString, Der.visit, h .str trivial]; exact fromUtf8_iff.2 hb.symm

theorem DocName.fun {x : Doc} {s s' : Str} (h : DocName x s) (h' : DocName x s') : s = s' := by
  cases h with
  | str => cases h'; rfl
  | char => cases h'; rfl
  | bytes h => cases h' with
    | bytes h' =>
      have := fromUtf8_iff.2 h.symm
      rw [fromUtf8_iff.2 h'.symm] at this
      exact (Option.some.inj this).symm

theorem deBool_shows {strict : Bool} {d : Der} {doc : Doc} (h : Shows strict d doc) {b : Bool} : deBool d = some b ↔ doc = .bool b := by
  cases h with
  | bool h => simp [deBool, Der.visit, h .bool trivial]
  | unit h | char h | str h | bytes h | num h | float h | none h | some h _ | newtype h _ | seq h _ _ | map h _ _ _ | enum h _ _ | bad h =>
    simp [deBool, Der.visit, h .bool trivial]

theorem forall₂_bools {xs : List Doc} {bs : List Bool} : List.Forall₂ (fun x b => x = Doc.bool b) xs bs ↔ xs = bs.map .bool := by
  induction bs generalizing xs with
  | nil => simp
  | cons b bs ih => cases xs with
    | nil => simp
    | cons x xs => simp [ih]

/-- Reading list elements one by one. -/
theorem forall₂_through {A B C : Type} {S : A → B → Prop} {P : A → C → Prop} {R : B → C → Prop} {as : List A} {bs : List B} {cs : List C}
    (hs : List.Forall₂ S as bs) (h : ∀ a b, a ∈ as → b ∈ bs → S a b → ∀ c, P a c ↔ R b c) : List.Forall₂ P as cs ↔ List.Forall₂ R bs cs := by
  induction hs generalizing cs with
  | nil => simp
  | @cons a b as bs h1 h2 ih =>
    cases cs with
    | nil => simp
    | cons c cs =>
      rw [List.forall₂_cons, List.forall₂_cons, h a b List.mem_cons_self List.mem_cons_self h1 c,
        ih (fun a b ha hb => h a b (List.mem_cons_of_mem _ ha) (List.mem_cons_of_mem _ hb))]

theorem deValues_forall {ds : List Der} {vs : List (Value Unit)} : deValues ds = some vs ↔ List.Forall₂ (fun d v => deValue d = some v) ds vs := by
  induction ds generalizing vs with
  | nil => cases vs <;> simp [deValues]
  | cons d ds ih =>
    rw [deValues]
    cases hd : deValue d with
    | none => cases vs <;> simp [hd]
    | some v =>
      cases hds : deValues ds with
      | none =>
        cases vs with
        | nil => simp
        | cons w ws => simp [hd, ← ih, hds]
      | some us =>
        cases vs with
        | nil => simp
        | cons w ws => simp [hd, ← ih, hds]

theorem deEntries_forall {ds : List (Der × Der)} {fs : List (Str × Value Unit)} :
    deEntries ds = some fs ↔ List.Forall₂ (fun d f => deString d.1 = some f.1 ∧ deValue d.2 = some f.2) ds fs := by
  induction ds generalizing fs with
  | nil => cases fs <;> simp [deEntries]
  | cons d ds ih =>
    obtain ⟨k, x⟩ := d
    rw [deEntries]
    cases hk : deString k with
    | none => cases fs <;> simp [hk]
    | some key =>
      cases hx : deValue x with
      | none => cases fs <;> simp [hk, hx]
      | some v =>
        cases hds : deEntries ds with
        | none => cases fs <;> simp [hk, hx, ← ih, hds]
        | some us =>
          cases fs with
          | nil => simp
          | cons w ws =>
            obtain ⟨a, b⟩ := w
            simp [hk, hx, ← ih, hds, and_assoc]

theorem shows_seq {strict : Bool} {d : Der} {xs : List Doc} (h : Shows strict d (.seq xs)) :
    ∃ ds, (∀ a : Hint, a.Plain → d.ask a = .seq strict ds) ∧ List.Forall₂ (Shows strict) ds xs := by
  cases h with
  | seq h len sub => exact ⟨_, h, pointwise_forall₂.1 ⟨len, sub⟩⟩

theorem shows_map {strict : Bool} {d : Der} {xs : List (Doc × Doc)} (h : Shows strict d (.map xs)) :
    ∃ ds, (∀ a : Hint, a.Plain → d.ask a = .map strict ds) ∧ List.Forall₂ (fun e x => Shows strict e.1 x.1 ∧ Shows strict e.2 x.2) ds xs := by
  cases h with
  | map h len key sub => exact ⟨_, h, pointwise_forall₂.1 ⟨len, fun i e x h1 h2 => ⟨key i e x h1 h2, sub i e x h1 h2⟩⟩⟩

theorem deBools_shows {strict : Bool} {d : Der} {doc : Doc} (h : Shows strict d doc) {bs : List Bool} : deVec deBool d = some bs ↔ DocBools doc bs := by
  unfold DocBools
  cases h with
  | @seq _ xs ds h len sub =>
    have h2 : List.Forall₂ (Shows strict) ds xs := pointwise_forall₂.1 ⟨len, sub⟩
    simp only [deVec, Der.visit, h .seq trivial]
    rw [allOf_iff, forall₂_through h2 (R := fun x b => x = .bool b) (fun a b _ _ hs c => deBool_shows hs), forall₂_bools]
    simp
  | bool h | unit h | char h | str h | bytes h | num h | float h | none h | some h _ | newtype h _ | map h _ _ _ | enum h _ _ | bad h =>
    simp [deVec, Der.visit, h .seq trivial]

theorem deValue_iff_ask {d : Der} {v : Value Unit} : deValue d = some v ↔ ∃ x, deDef (d.ask .any) = some x ∧ v = .mk x () := by
  cases d with | mk f =>
  rw [deValue]
  simp only [Der.ask]
  cases deDef (f .any) with
  | none => simp
  | some x => simp [eq_comm]

theorem deComposite_ask {d : Der} : deComposite d = deComp (d.ask .any) := by
  cases d with | mk f => rw [deComposite]; rfl

theorem bitIdent_eq : bitIdent = "__bitvec__values__".toList := rfl

mutual
theorem value_shows {strict : Bool} : ∀ (doc : Doc) (d : Der), Shows strict d doc → ∀ v, deValue d = some v ↔ DocValue strict doc v
  | .unit, d, hd, v => by
    cases hd with | unit h =>
    rw [deValue_iff_ask, h .any trivial]; simp only [deDef]
    constructor
    · rintro ⟨x, hx, rfl⟩; cases hx; exact .unit
    · intro hv; cases hv; exact ⟨_, rfl, rfl⟩
  | .bool b, d, hd, v => by
    cases hd with | bool h =>
    rw [deValue_iff_ask, h .any trivial]; simp only [deDef]
    constructor
    · rintro ⟨x, hx, rfl⟩; cases hx; exact .bool _
    · intro hv; cases hv; exact ⟨_, rfl, rfl⟩
  | .num n, d, hd, v => by
    cases hd with | num h =>
    rw [deValue_iff_ask, h .any trivial]; simp only [deDef]
    constructor
    · rintro ⟨x, hx, rfl⟩; cases hx; exact .num (repNum_iff.2 rfl)
    · intro hv; cases hv with | num h => exact ⟨_, by rw [repNum_iff.1 h], rfl⟩
  | .float, d, hd, v => by
    cases hd with | float h =>
    rw [deValue_iff_ask, h .any trivial]; simp only [deDef]
    constructor
    · rintro ⟨x, hx, rfl⟩; cases hx
    · intro hv; cases hv
  | .char c, d, hd, v => by
    cases hd with | char h =>
    rw [deValue_iff_ask, h .any trivial]; simp only [deDef]
    constructor
    · rintro ⟨x, hx, rfl⟩; cases hx; exact .char _
    · intro hv; cases hv; exact ⟨_, rfl, rfl⟩
  | .str s, d, hd, v => by
    cases hd with | str h =>
    rw [deValue_iff_ask, h .any trivial]; simp only [deDef]
    constructor
    · rintro ⟨x, hx, rfl⟩; cases hx; exact .str _
    · intro hv; cases hv; exact ⟨_, rfl, rfl⟩
  | .bytes bs, d, hd, v => by
    cases hd with | bytes h =>
    rw [deValue_iff_ask, h .any trivial]; simp only [deDef]
    constructor
    · rintro ⟨x, hx, rfl⟩; cases hx; exact .bytes (byteList_iff.2 rfl)
    · intro hv; cases hv with | bytes h => exact ⟨_, by rw [← byteList_iff.1 h], rfl⟩
  | .none, d, hd, v => by
    cases hd with | none h =>
    rw [deValue_iff_ask, h .any trivial]; simp only [deDef]
    constructor
    · rintro ⟨x, hx, rfl⟩; cases hx; exact .none
    · intro hv; cases hv; exact ⟨_, rfl, rfl⟩
  | .some y, d, hd, v => by
    cases hd with | @some _ e _ h sub =>
    rw [deValue_iff_ask, h .any trivial]; simp only [deDef]
    constructor
    · rintro ⟨x, hx, rfl⟩
      cases he : deValue e with
      | none => rw [he] at hx; cases hx
      | some w => rw [he] at hx; cases hx; exact .some ((value_shows y e sub w).1 he)
    · intro hv
      cases hv with
      | @some _ w hw => exact ⟨_, by rw [(value_shows y e sub w).2 hw], rfl⟩
  | .newtype y, d, hd, v => by
    cases hd with | @newtype _ e _ h sub =>
    rw [deValue_iff_ask, h .any trivial]; simp only [deDef]
    constructor
    · rintro ⟨x, hx, rfl⟩
      cases he : deValue e with
      | none => rw [he] at hx; cases hx
      | some w => rw [he] at hx; cases hx; cases w with | mk w _ => exact .newtype ((value_shows y e sub _).1 he)
    · intro hv
      cases hv with
      | @newtype _ w hw => exact ⟨_, by rw [(value_shows y e sub _).2 hw], by cases v; rfl⟩
  | .seq xs, d, hd, v => by
    obtain ⟨ds, h, h2⟩ := shows_seq hd
    rw [deValue_iff_ask, h .any trivial]; simp only [deDef]
    have key : ∀ vs, deValues ds = some vs ↔ List.Forall₂ (DocValue strict) xs vs := fun vs => by
      rw [deValues_forall]
      exact forall₂_through h2 (fun a b _ hb hs c => value_shows b a hs c)
    constructor
    · rintro ⟨x, hx, rfl⟩
      cases he : deValues ds with
      | none => rw [he] at hx; cases hx
      | some w =>
        rw [he] at hx; cases hx
        obtain ⟨h3, h4⟩ := pointwise_forall₂.2 ((key w).1 he)
        exact .seq h3 h4
    · intro hv
      cases hv with
      | seq h3 h4 => exact ⟨_, by rw [(key _).2 (pointwise_forall₂.1 ⟨h3, h4⟩)], rfl⟩
  | .map xs, d, hd, v => by
    obtain ⟨ds, h, h2⟩ := shows_map hd
    rw [deValue_iff_ask, h .any trivial]
    have key : ∀ fs, deEntries ds = some fs ↔ List.Forall₂ (fun e f => DocName e.1 f.1 ∧ DocValue strict e.2 f.2) xs fs := fun fs => by
      rw [deEntries_forall]
      exact forall₂_through h2 (fun a b _ hb hs c => by
        obtain ⟨b1, b2⟩ := b
        rw [deString_shows hs.1, value_shows b2 a.2 hs.2])
    have split : ∀ fs : List (Str × Value Unit), List.Forall₂ (fun e f => DocName e.1 f.1 ∧ DocValue strict e.2 f.2) xs fs ↔ xs.length = fs.length ∧
        (∀ (i : Nat) (e : Doc × Doc) (f : Str × Value Unit), xs[i]? = some e → fs[i]? = some f → DocName e.1 f.1) ∧
        (∀ (i : Nat) (e : Doc × Doc) (f : Str × Value Unit), xs[i]? = some e → fs[i]? = some f → DocValue strict e.2 f.2) := fun fs => by
      rw [← pointwise_forall₂]
      exact ⟨fun ⟨a, b⟩ => ⟨a, fun i e f h1 h2 => (b i e f h1 h2).1, fun i e f h1 h2 => (b i e f h1 h2).2⟩,
        fun ⟨a, b, c⟩ => ⟨a, fun i e f h1 h2 => ⟨b i e f h1 h2, c i e f h1 h2⟩⟩⟩
    cases h2 with
    | nil =>
      simp only [deDef]
      constructor
      · rintro ⟨x, hx, rfl⟩; cases hx
        exact .map (by rintro ⟨p, hp, _⟩; cases hp) rfl (by intro i e f h; simp at h) (by intro i e f h; simp at h)
      · intro hv
        cases hv with
        | map _ len _ _ => exact ⟨_, rfl, by rw [List.length_eq_zero_iff.1 len.symm]⟩
    | @cons e x ds xs h3 h4 =>
      obtain ⟨k, y⟩ := e
      obtain ⟨k', y'⟩ := x
      simp only at h3
      rw [deEntries] at key
      rw [deDef]
      cases hk : deString k with
      | none =>
        simp only
        constructor
        · rintro ⟨x, hx, _⟩; cases hx
        · intro hv
          cases hv with
          | @map _ fs _ len kk _ =>
            cases fs with
            | nil => cases len
            | cons f fs => rw [(deString_shows h3.1).2 (kk 0 _ f rfl rfl)] at hk; cases hk
          | bitMap hb _ _ => rw [(deString_shows h3.1).2 hb] at hk; cases hk
      | some name =>
        have hn := (deString_shows h3.1).1 hk
        simp only
        by_cases hb : name = bitIdent
        · rw [if_pos hb]
          rw [hb, bitIdent_eq] at hn
          constructor
          · rintro ⟨x, hx, rfl⟩
            cases hbs : deVec deBool y with
            | none => rw [hbs] at hx; cases hx
            | some bs =>
              rw [hbs] at hx
              simp only at hx
              by_cases hr : strict = true ∧ ds ≠ []
              · rw [if_pos hr] at hx; cases hx
              · rw [if_neg hr] at hx; cases hx
                refine .bitMap hn ((deBools_shows h3.2).1 hbs) (fun hs => ?_)
                cases h4 with
                | nil => rfl
                | cons _ _ => exact (hr ⟨hs, by simp⟩).elim
          · intro hv
            cases hv with
            | map hbit _ _ _ => exact (hbit ⟨_, rfl, hn⟩).elim
            | bitMap _ hbs hr =>
              refine ⟨_, ?_, rfl⟩
              rw [(deBools_shows h3.2).2 hbs]
              simp only
              rw [if_neg]
              rintro ⟨hs, hne⟩
              cases hr hs
              cases h4
              exact hne rfl
        · rw [if_neg hb]
          have hnb : ¬ BitMap ((k', y') :: xs) := by
            rintro ⟨p, hp, hp2⟩
            cases hp
            exact hb (hn.fun hp2)
          rw [hk] at key
          simp only at key
          constructor
          · rintro ⟨x, hx, rfl⟩
            cases hy : deValue y with
            | none => rw [hy] at hx; cases hx
            | some w =>
              rw [hy] at hx key
              simp only at hx
              cases hds : deEntries ds with
              | none => rw [hds] at hx; cases hx
              | some es =>
                rw [hds] at hx key
                cases hx
                obtain ⟨a, b, c⟩ := (split _).1 ((key ((name, w) :: es)).1 rfl)
                exact .map hnb a b c
          · intro hv
            cases hv with
            | bitMap hbit _ _ => exact (hb (hn.fun hbit)).elim
            | @map _ fs _ a b c =>
              have hk2 := (key fs).2 ((split _).2 ⟨a, b, c⟩)
              cases hy : deValue y with
              | none => rw [hy] at hk2; cases hk2
              | some w =>
                rw [hy] at hk2
                simp only at hk2 ⊢
                cases hds : deEntries ds with
                | none => rw [hds] at hk2; cases hk2
                | some es => rw [hds] at hk2; cases hk2; exact ⟨_, rfl, rfl⟩
  | .enum y z, d, hd, v => by
    cases hd with | @enum _ e f _ _ _ h name sub =>
    rw [deValue_iff_ask, h .any trivial]; simp only [deDef]
    constructor
    · rintro ⟨x, hx, rfl⟩
      cases he : deString e with
      | none => rw [he] at hx; cases hx
      | some n =>
        rw [he] at hx
        cases hf : deComposite f with
        | none => rw [hf] at hx; cases hx
        | some c => rw [hf] at hx; cases hx; exact .enum ((deString_shows name).1 he) ((composite_shows z f sub c).1 hf)
    · intro hv
      cases hv with
      | @enum _ _ _ _ h1 h2 => exact ⟨_, by rw [(deString_shows name).2 h1, (composite_shows z f sub _).2 h2], rfl⟩
  | .bad _, d, hd, v => by
    cases hd with | bad h =>
    rw [deValue_iff_ask, h .any trivial]; simp only [deDef]
    constructor
    · rintro ⟨x, hx, rfl⟩; cases hx
    · intro hv; cases hv
termination_by doc => sizeOf doc
decreasing_by
  all_goals first
    | decreasing_tactic
    | (simp only [Doc.map.sizeOf_spec]; have := List.sizeOf_lt_of_mem hb; simp only [Prod.mk.sizeOf_spec] at this; omega)
theorem composite_shows {strict : Bool} : ∀ (doc : Doc) (d : Der), Shows strict d doc → ∀ c, deComposite d = some c ↔ DocComposite strict doc c
  | .unit, d, hd, v => by
    cases hd with | unit h =>
    rw [deComposite_ask, h .any trivial, deComp]
    constructor
    · rintro ⟨⟩; exact .unit
    · intro hv; cases hv; rfl
  | .bytes bs, d, hd, v => by
    cases hd with | bytes h =>
    rw [deComposite_ask, h .any trivial, deComp]
    constructor
    · rintro ⟨⟩; exact .bytes (byteList_iff.2 rfl)
    · intro hv; cases hv with | bytes h => rw [← byteList_iff.1 h]
  | .newtype y, d, hd, v => by
    cases hd with | @newtype _ e _ h sub =>
    rw [deComposite_ask, h .any trivial, deComp, composite_shows y e sub]
    constructor
    · intro hv; exact .newtype hv
    · intro hv; cases hv with | newtype h => exact h
  | .seq xs, d, hd, v => by
    obtain ⟨ds, h, h2⟩ := shows_seq hd
    rw [deComposite_ask, h .any trivial, deComp]
    have key : ∀ vs, deValues ds = some vs ↔ List.Forall₂ (DocValue strict) xs vs := fun vs => by
      rw [deValues_forall]
      exact forall₂_through h2 (fun a b _ hb hs c => value_shows b a hs c)
    constructor
    · intro hx
      cases he : deValues ds with
      | none => rw [he] at hx; cases hx
      | some w =>
        rw [he] at hx; cases hx
        obtain ⟨h3, h4⟩ := pointwise_forall₂.2 ((key w).1 he)
        exact .seq h3 h4
    · intro hv
      cases hv with
      | seq h3 h4 => rw [(key _).2 (pointwise_forall₂.1 ⟨h3, h4⟩)]
  | .map xs, d, hd, v => by
    obtain ⟨ds, h, h2⟩ := shows_map hd
    rw [deComposite_ask, h .any trivial, deComp]
    have key : ∀ fs, deEntries ds = some fs ↔ List.Forall₂ (fun e f => DocName e.1 f.1 ∧ DocValue strict e.2 f.2) xs fs := fun fs => by
      rw [deEntries_forall]
      exact forall₂_through h2 (fun a b _ hb hs c => by
        obtain ⟨b1, b2⟩ := b
        rw [deString_shows hs.1, value_shows b2 a.2 hs.2])
    constructor
    · intro hx
      cases he : deEntries ds with
      | none => rw [he] at hx; cases hx
      | some w =>
        rw [he] at hx; cases hx
        obtain ⟨h3, h4⟩ := pointwise_forall₂.2 ((key w).1 he)
        exact .map h3 (fun i e f a b => (h4 i e f a b).1) (fun i e f a b => (h4 i e f a b).2)
    · intro hv
      cases hv with
      | map h3 h4 h5 => rw [(key _).2 (pointwise_forall₂.1 ⟨h3, fun i e f a b => ⟨h4 i e f a b, h5 i e f a b⟩⟩)]
  | .bool _, d, hd, v => by
    cases hd with | bool h => rw [deComposite_ask, h .any trivial, deComp]; exact ⟨(by intro h; cases h), (by intro h; cases h)⟩
  | .num _, d, hd, v => by
    cases hd with | num h => rw [deComposite_ask, h .any trivial, deComp]; exact ⟨(by intro h; cases h), (by intro h; cases h)⟩
  | .float, d, hd, v => by
    cases hd with | float h => rw [deComposite_ask, h .any trivial, deComp]; exact ⟨(by intro h; cases h), (by intro h; cases h)⟩
  | .char _, d, hd, v => by
    cases hd with | char h => rw [deComposite_ask, h .any trivial, deComp]; exact ⟨(by intro h; cases h), (by intro h; cases h)⟩
  | .str _, d, hd, v => by
    cases hd with | str h => rw [deComposite_ask, h .any trivial, deComp]; exact ⟨(by intro h; cases h), (by intro h; cases h)⟩
  | .none, d, hd, v => by
    cases hd with | none h => rw [deComposite_ask, h .any trivial, deComp]; exact ⟨(by intro h; cases h), (by intro h; cases h)⟩
  | .some _, d, hd, v => by
    cases hd with | some h _ => rw [deComposite_ask, h .any trivial, deComp]; exact ⟨(by intro h; cases h), (by intro h; cases h)⟩
  | .enum _ _, d, hd, v => by
    cases hd with | enum h _ _ => rw [deComposite_ask, h .any trivial, deComp]; exact ⟨(by intro h; cases h), (by intro h; cases h)⟩
  | .bad _, d, hd, v => by
    cases hd with | bad h => rw [deComposite_ask, h .any trivial, deComp]; exact ⟨(by intro h; cases h), (by intro h; cases h)⟩
termination_by doc => sizeOf doc
decreasing_by
  all_goals first
    | decreasing_tactic
    | (simp only [Doc.map.sizeOf_spec]; have := List.sizeOf_lt_of_mem hb; simp only [Prod.mk.sizeOf_spec] at this; omega)
end

end SV
