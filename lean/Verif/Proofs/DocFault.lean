import Verif.Spec.DocFault
import Verif.Proofs.DeFault
import Verif.Proofs.DocRefused
/-
Proofs about the errors of reading documents.
-/
namespace SV

/-- Reading an entry of a map. -/
def entryE (p : Der × Der) : Except DeErr (Str × Value Unit) :=
  match deStringE p.1 with
  | .error e => .error e
  | .ok k => match deValueE p.2 with
    | .error e => .error e
    | .ok v => .ok (k, v)

theorem deEntriesE_eq (l : List (Der × Der)) : deEntriesE l = allOfE entryE l := by
  induction l with
  | nil => rw [deEntriesE, allOfE]
  | cons p l ih =>
    obtain ⟨k, d⟩ := p
    rw [deEntriesE, allOfE, ih, entryE]
    cases deStringE k with
    | error e => rfl
    | ok s => cases deValueE d with
      | error e => rfl
      | ok v => cases allOfE entryE l <;> rfl

theorem deValuesE_all (l : List Der) : deValuesE l = allOfE deValueE l := by
  induction l with
  | nil => rw [deValuesE, allOfE]
  | cons d l ih =>
    rw [deValuesE, allOfE, ih]
    cases deValueE d with
    | error e => rfl
    | ok v => cases allOfE deValueE l <;> rfl

/-- The first error, seen through a relation of lists. -/
theorem first_through {A B C : Type} {S : A → B → Prop} {f : A → Except DeErr C} {G R : B → Prop} {as : List A} {bs : List B} {e : DeErr}
    (hs : List.Forall₂ S as bs) (hg : ∀ a b, S a b → ((∃ y, f a = .ok y) ↔ G b)) (hr : ∀ a b, b ∈ bs → S a b → (f a = .error e ↔ R b)) :
    FirstError f as e ↔ ∃ pre x post, bs = pre ++ x :: post ∧ (∀ y ∈ pre, G y) ∧ R x := by
  induction hs with
  | nil => simp [FirstError]
  | @cons a b as bs h1 h2 ih =>
    rw [firstError_cons, ih (fun a b hb => hr a b (List.mem_cons_of_mem _ hb)), hr a b List.mem_cons_self h1, hg a b h1]
    constructor
    · rintro (h | ⟨h, pre, x, post, rfl, h3, h4⟩)
      · exact ⟨[], b, bs, rfl, by simp, h⟩
      · refine ⟨b :: pre, x, post, rfl, ?_, h4⟩
        intro y hy
        rcases List.mem_cons.1 hy with rfl | hy
        · exact h
        · exact h3 y hy
    · rintro ⟨pre, x, post, h0, h3, h4⟩
      cases pre with
      | nil => cases h0; exact .inl h4
      | cons q pre => cases h0; exact .inr ⟨h3 _ List.mem_cons_self, pre, x, post, rfl, fun y hy => h3 y (List.mem_cons_of_mem _ hy), h4⟩

theorem deStringE_shows {strict : Bool} {d : Der} {doc : Doc} (h : Shows strict d doc) {s : Str} : deStringE d = .ok s ↔ DocName doc s := by
  rw [← deString_shows h, ← deStringE_agree, toOption_ok]

theorem deStringE_fault {strict : Bool} {d : Der} {doc : Doc} (h : Shows strict d doc) {e : DeErr} : deStringE d = .error e ↔ NameFault doc e := by
  cases h with
  | str h =>
    simp only [deStringE, Der.visit, h .str trivial]
    constructor
    · intro h; cases h
    · intro h; cases h with | kind h1 => exact absurd rfl (h1 _)
  | char h =>
    simp only [deStringE, Der.visit, h .str trivial]
    constructor
    · intro h; cases h
    · intro h; cases h with | kind h1 h2 => exact absurd rfl (h2 _)
  | @bytes _ bs h =>
    simp only [deStringE, Der.visit, h .str trivial]
    cases hu : fromUtf8 bs with
    | none =>
      have : ∀ s, utf8Bytes s ≠ bs := fun s hs => by rw [fromUtf8_iff.2 hs.symm] at hu; cases hu
      constructor
      · intro h; cases h; exact .bytes this
      · intro h
        cases h with
        | bytes => rfl
        | kind _ _ h3 => exact absurd rfl (h3 _)
    | some s =>
      constructor
      · intro h; cases h
      · intro h
        cases h with
        | bytes h => exact absurd (fromUtf8_iff.1 hu).symm (h s)
        | kind _ _ h3 => exact absurd rfl (h3 _)
  | unit h | bool h | num h | float h | none h | some h _ | newtype h _ | seq h _ _ | map h _ _ _ | enum h _ _ =>
    simp only [deStringE, Der.visit, h .str trivial, Reply.wrong, Reply.unexp]
    constructor
    · intro h; cases h; exact .kind (by intro s; simp) (by intro s; simp) (by intro s; simp) (.kind (by constructor))
    · intro h
      cases h with | kind _ _ _ h =>
      cases h with
      | kind h => cases h; rfl
      | bad h => cases h
  | bad h =>
    simp only [deStringE, Der.visit, h .str trivial, Reply.wrong]
    constructor
    · intro h; cases h; exact .kind (by intro s; simp) (by intro s; simp) (by intro s; simp) (.bad rfl)
    · intro h
      cases h with | kind _ _ _ h =>
      cases h with
      | kind h => cases h
      | bad h => cases h; rfl

theorem deBoolE_shows {strict : Bool} {d : Der} {doc : Doc} (h : Shows strict d doc) {b : Bool} : deBoolE d = .ok b ↔ doc = .bool b := by
  rw [← deBool_shows h, ← deBoolE_agree, toOption_ok]

theorem deBoolE_fault {strict : Bool} {d : Der} {doc : Doc} (h : Shows strict d doc) {e : DeErr} : deBoolE d = .error e ↔ (∀ b, doc ≠ .bool b) ∧ WrongKind doc .bool e := by
  cases h with
  | bool h => simp [deBoolE, Der.visit, h .bool trivial]
  | unit h | str h | char h | bytes h | num h | float h | none h | some h _ | newtype h _ | seq h _ _ | map h _ _ _ | enum h _ _ =>
    simp only [deBoolE, Der.visit, h .bool trivial, Reply.wrong, Reply.unexp]
    constructor
    · intro h; cases h; exact ⟨by intro s; simp, .kind (by constructor)⟩
    · rintro ⟨-, h⟩
      cases h with
      | kind h => cases h; rfl
      | bad h => cases h
  | bad h =>
    simp only [deBoolE, Der.visit, h .bool trivial, Reply.wrong]
    constructor
    · intro h; cases h; exact ⟨by intro s; simp, .bad rfl⟩
    · rintro ⟨-, h⟩
      cases h with
      | kind h => cases h
      | bad h => cases h; rfl

theorem deBoolsE_shows {strict : Bool} {d : Der} {doc : Doc} (h : Shows strict d doc) {bs : List Bool} : deVecE deBoolE d = .ok bs ↔ DocBools doc bs := by
  rw [← deBools_shows h, ← deVecE_agree deBoolE_agree, toOption_ok]

theorem deBoolsE_fault {strict : Bool} {d : Der} {doc : Doc} (h : Shows strict d doc) {e : DeErr} : deVecE deBoolE d = .error e ↔ BoolsFault doc e := by
  cases h with
  | @seq _ xs ds h len sub =>
    have h2 : List.Forall₂ (Shows strict) ds xs := pointwise_forall₂.1 ⟨len, sub⟩
    simp only [deVecE, Der.visit, h .seq trivial]
    rw [allOfE_error, first_through h2 (G := fun x => ∃ b, x = .bool b) (R := fun x => (∀ b, x ≠ .bool b) ∧ WrongKind x .bool e)
      (fun a b hs => by simp only [deBoolE_shows hs]) (fun a b _ hs => deBoolE_fault hs)]
    constructor
    · rintro ⟨pre, x, post, rfl, h1, h2, h3⟩; exact .elem h1 h2 h3
    · intro h
      generalize hx : Doc.seq xs = x at h
      cases h with
      | kind h1 => exact absurd hx.symm (h1 _)
      | elem h1 h4 h3 => cases hx; exact ⟨_, _, _, rfl, h1, h4, h3⟩
  | unit h | str h | char h | bytes h | num h | float h | none h | some h _ | newtype h _ | bool h | map h _ _ _ | enum h _ _ =>
    simp only [deVecE, Der.visit, h .seq trivial, Reply.wrong, Reply.unexp]
    constructor
    · intro h; cases h; exact .kind (by intro s; simp) (.kind (by constructor))
    · intro h
      cases h with | kind _ h =>
      cases h with
      | kind h => cases h; rfl
      | bad h => cases h
  | bad h =>
    simp only [deVecE, Der.visit, h .seq trivial, Reply.wrong]
    constructor
    · intro h; cases h; exact .kind (by intro s; simp) (.bad rfl)
    · intro h
      cases h with | kind _ h =>
      cases h with
      | kind h => cases h
      | bad h => cases h; rfl

theorem deDefE_map {closed : Bool} {l : List (Der × Der)} {e : DeErr} : deDefE (.map closed l) = .error e ↔
    (∃ k v r, l = (k, v) :: r ∧ deStringE k = .ok bitIdent ∧ (deVecE deBoolE v = .error e ∨ (∃ bs, deVecE deBoolE v = .ok bs) ∧ closed = true ∧ r ≠ [] ∧ e = .leftover)) ∨
    ((∀ k v r, l = (k, v) :: r → deStringE k ≠ .ok bitIdent) ∧ FirstError entryE l e) := by
  cases l with
  | nil => simp [deDefE, FirstError]
  | cons p r =>
    obtain ⟨k, v⟩ := p
    rw [deDefE]
    cases hk : deStringE k with
    | error e' =>
      simp only [Except.error.injEq]
      constructor
      · rintro rfl
        refine .inr ⟨?_, firstError_cons.2 (.inl (by simp [entryE, hk]))⟩
        intro k' v' r' h; cases h; rw [hk]; simp
      · rintro (⟨k', v', r', h, h1, -⟩ | ⟨-, h⟩)
        · cases h; rw [hk] at h1; cases h1
        · rcases firstError_cons.1 h with h | ⟨⟨b, h⟩, -⟩ <;> simp only [entryE, hk] at h
          · cases h; rfl
          · cases h
    | ok s =>
      simp only
      by_cases hb : s = bitIdent
      · rw [if_pos hb]
        subst hb
        constructor
        · intro h
          refine .inl ⟨k, v, r, rfl, hk, ?_⟩
          cases hv : deVecE deBoolE v with
          | error e' => rw [hv] at h; cases h; exact .inl rfl
          | ok bs =>
            rw [hv] at h
            simp only at h
            by_cases hc : closed = true ∧ r ≠ []
            · rw [if_pos hc] at h; cases h; exact .inr ⟨⟨_, rfl⟩, hc.1, hc.2, rfl⟩
            · rw [if_neg hc] at h; cases h
        · rintro (⟨k', v', r', h, -, h1 | ⟨⟨bs, h1⟩, h2, h3, rfl⟩⟩ | ⟨h, -⟩)
          · cases h; rw [h1]
          · cases h; rw [h1]; simp only; rw [if_pos ⟨h2, h3⟩]
          · exact absurd hk (h _ _ _ rfl)
      · rw [if_neg hb]
        refine Iff.trans (b := FirstError entryE ((k, v) :: r) e) ?_ ?_
        · rw [← allOfE_error, allOfE, deEntriesE_eq]
          simp only [entryE, hk]
          cases deValueE v with
          | error e' => simp
          | ok w =>
            simp only
            cases allOfE entryE r <;> simp
        · constructor
          · intro h
            refine .inr ⟨?_, h⟩
            intro k' v' r' h; cases h; rw [hk]; intro h; cases h; exact hb rfl
          · rintro (⟨k', v', r', h, h1, -⟩ | ⟨-, h⟩)
            · cases h; rw [hk] at h1; cases h1; exact absurd rfl hb
            · exact h

theorem deValueE_shows {strict : Bool} {d : Der} {doc : Doc} (h : Shows strict d doc) {v : Value Unit} : deValueE d = .ok v ↔ DocValue strict doc v := by
  rw [← value_shows doc d h, ← deValueE_agree, toOption_ok]

theorem deCompositeE_shows {strict : Bool} {d : Der} {doc : Doc} (h : Shows strict d doc) {v : Composite Unit} : deCompositeE d = .ok v ↔ DocComposite strict doc v := by
  rw [← composite_shows doc d h, ← deCompositeE_agree, toOption_ok]

theorem deValueE_ask {d : Der} {e : DeErr} : deValueE d = .error e ↔ deDefE (d.ask .any) = .error e := by
  cases d with | mk f =>
  rw [deValueE]
  simp only [Der.ask]
  cases deDefE (f .any) <;> simp

theorem deCompositeE_ask {d : Der} : deCompositeE d = deCompE (d.ask .any) := by
  cases d with | mk f => rw [deCompositeE]; rfl

theorem entryE_ok {strict : Bool} {p : Der × Der} {x : Doc × Doc} (h : Shows strict p.1 x.1 ∧ Shows strict p.2 x.2) :
    (∃ y, entryE p = .ok y) ↔ (∃ s, DocName x.1 s) ∧ ∃ v, DocValue strict x.2 v := by
  simp only [← deStringE_shows h.1, ← deValueE_shows h.2, entryE]
  cases deStringE p.1 with
  | error e => simp
  | ok s => cases deValueE p.2 <;> simp

theorem entryE_error {strict : Bool} {p : Der × Der} {x : Doc × Doc} (h : Shows strict p.1 x.1 ∧ Shows strict p.2 x.2) {e : DeErr} {F : Prop} (hf : deValueE p.2 = .error e ↔ F) :
    entryE p = .error e ↔ NameFault x.1 e ∨ (∃ s, DocName x.1 s) ∧ F := by
  simp only [← deStringE_shows h.1, ← deStringE_fault h.1, ← hf, entryE]
  cases deStringE p.1 with
  | error e => simp
  | ok s => cases deValueE p.2 <;> simp

theorem kindOnly {strict : Bool} {x : Doc} {u : Unexp} {e : DeErr} (hk : DocKind x u)
    (h : (∃ b, x = .bool b) ∨ (∃ n, x = .num n) ∨ x = .float ∨ (∃ c, x = .char c) ∨ (∃ s, x = .str s) ∨ x = .none ∨ (∃ y, x = .some y) ∨ (∃ y z, x = .enum y z) ∨ ∃ msg, x = .bad msg) :
    (Except.error (.invalidType u .composite) : Except DeErr (Composite Unit)) = .error e ↔ CompositeFault strict x e := by
  constructor
  · intro h'; cases h'; exact .kind h (.kind hk)
  · intro h'
    cases h' with
    | kind _ h' =>
      cases h' with
      | kind h' => cases hk <;> cases h' <;> rfl
      | bad h' => subst h'; cases hk
    | newtype | seq | mapKey | mapVal => simp at h

mutual
theorem value_fault {strict : Bool} : ∀ (doc : Doc) (d : Der), Shows strict d doc → ∀ e, deValueE d = .error e ↔ DocFault strict doc e
  | .unit, d, hd, e => by
    cases hd with | unit h => rw [deValueE_ask, h .any trivial, deDefE]; exact ⟨(by intro h; cases h), (by intro h; cases h)⟩
  | .bool _, d, hd, e => by
    cases hd with | bool h => rw [deValueE_ask, h .any trivial, deDefE]; exact ⟨(by intro h; cases h), (by intro h; cases h)⟩
  | .num _, d, hd, e => by
    cases hd with | num h => rw [deValueE_ask, h .any trivial, deDefE]; exact ⟨(by intro h; cases h), (by intro h; cases h)⟩
  | .char _, d, hd, e => by
    cases hd with | char h => rw [deValueE_ask, h .any trivial, deDefE]; exact ⟨(by intro h; cases h), (by intro h; cases h)⟩
  | .str _, d, hd, e => by
    cases hd with | str h => rw [deValueE_ask, h .any trivial, deDefE]; exact ⟨(by intro h; cases h), (by intro h; cases h)⟩
  | .bytes _, d, hd, e => by
    cases hd with | bytes h => rw [deValueE_ask, h .any trivial, deDefE]; exact ⟨(by intro h; cases h), (by intro h; cases h)⟩
  | .none, d, hd, e => by
    cases hd with | none h => rw [deValueE_ask, h .any trivial, deDefE]; exact ⟨(by intro h; cases h), (by intro h; cases h)⟩
  | .float, d, hd, e => by
    cases hd with | float h => rw [deValueE_ask, h .any trivial, deDefE]; exact ⟨(by intro h; cases h; exact .float), (by intro h; cases h; rfl)⟩
  | .bad _, d, hd, e => by
    cases hd with | bad h => rw [deValueE_ask, h .any trivial, deDefE]; exact ⟨(by intro h; cases h; exact .bad _), (by intro h; cases h; rfl)⟩
  | .some y, d, hd, e => by
    cases hd with | @some _ f _ h sub =>
    rw [deValueE_ask, h .any trivial, deDefE]
    have ih := value_fault y f sub e
    constructor
    · intro hx
      refine .some (ih.1 ?_)
      cases hf : deValueE f with
      | ok w => rw [hf] at hx; cases hx
      | error e' => rw [hf] at hx; cases hx; rfl
    · intro hx
      cases hx with | some hx => rw [ih.2 hx]
  | .newtype y, d, hd, e => by
    cases hd with | @newtype _ f _ h sub =>
    rw [deValueE_ask, h .any trivial, deDefE]
    have ih := value_fault y f sub e
    constructor
    · intro hx
      refine .newtype (ih.1 ?_)
      cases hf : deValueE f with
      | ok w => rw [hf] at hx; cases hx
      | error e' => rw [hf] at hx; cases hx; rfl
    · intro hx
      cases hx with | newtype hx => rw [ih.2 hx]
  | .seq xs, d, hd, e => by
    obtain ⟨ds, h, h2⟩ := shows_seq hd
    rw [deValueE_ask, h .any trivial, deDefE, deValuesE_all]
    refine Iff.trans (b := allOfE deValueE ds = .error e) (by cases allOfE deValueE ds <;> simp) ?_
    rw [allOfE_error, first_through h2 (G := fun x => ∃ v, DocValue strict x v) (R := fun x => DocFault strict x e)
      (fun a b hs => by simp only [deValueE_shows hs]) (fun a b hb hs => value_fault b a hs e)]
    constructor
    · rintro ⟨pre, x, post, rfl, h1, h2⟩; exact .seq h1 h2
    · intro h
      generalize hx : Doc.seq xs = x at h
      cases h <;> cases hx
      next h1 h3 => exact ⟨_, _, _, rfl, h1, h3⟩
  | .map xs, d, hd, e => by
    obtain ⟨ds, h, h2⟩ := shows_map hd
    rw [deValueE_ask, h .any trivial, deDefE_map]
    have key : FirstError entryE ds e ↔ ∃ pre x post, xs = pre ++ x :: post ∧ (∀ y ∈ pre, (∃ s, DocName y.1 s) ∧ ∃ v, DocValue strict y.2 v) ∧
        (NameFault x.1 e ∨ (∃ s, DocName x.1 s) ∧ DocFault strict x.2 e) :=
      first_through h2 (fun a b hs => entryE_ok hs) (fun a b hb hs => entryE_error hs (by
        obtain ⟨b1, b2⟩ := b
        exact value_fault b2 a.2 hs.2 e))
    rw [key]
    have bit : (∀ k v r, ds = (k, v) :: r → deStringE k ≠ .ok bitIdent) ↔ ¬ BitMap xs := by
      cases h2 with
      | nil => simp [BitMap]
      | @cons a b l l' h3 h4 =>
        obtain ⟨a1, a2⟩ := a
        simp only [BitMap, List.head?_cons, Option.some.injEq, List.cons.injEq, Prod.mk.injEq, ← bitIdent_eq]
        constructor
        · rintro h ⟨p, rfl, hp⟩; exact h _ _ _ ⟨⟨rfl, rfl⟩, rfl⟩ ((deStringE_shows h3.1).2 hp)
        · rintro h k v r ⟨⟨rfl, rfl⟩, rfl⟩ hk; exact h ⟨_, rfl, (deStringE_shows h3.1).1 hk⟩
    rw [bit]
    constructor
    · rintro (⟨k, v, r, rfl, hk, hr⟩ | ⟨hb, pre, ⟨k, x⟩, post, rfl, h3, h4 | ⟨⟨s, h4⟩, h5⟩⟩)
      · cases h2 with
        | @cons _ b _ l' h3 h4 =>
          obtain ⟨b1, b2⟩ := b
          have hk' := (deStringE_shows h3.1).1 hk
          rw [bitIdent_eq] at hk'
          rcases hr with hr | ⟨⟨bs, hbs⟩, hc, hr, rfl⟩
          · exact .bits hk' ((deBoolsE_fault h3.2).1 hr)
          · refine .bitsRest hk' ((deBoolsE_shows h3.2).1 hbs) hc ?_
            rintro rfl; cases h4; exact hr rfl
      · exact .mapKey hb h3 h4
      · exact .mapVal hb h3 h4 h5
    · intro hf
      generalize hx : Doc.map xs = x at hf
      cases hf <;> cases hx
      · next h3 h4 h5 => exact .inr ⟨h3, _, _, _, rfl, h4, .inl h5⟩
      · next h3 h4 h5 h6 => exact .inr ⟨h3, _, _, _, rfl, h4, .inr ⟨⟨_, h5⟩, h6⟩⟩
      · next hk hb =>
        cases h2 with
        | @cons a _ l _ h3 h4 =>
          obtain ⟨a1, a2⟩ := a
          rw [← bitIdent_eq] at hk
          exact .inl ⟨_, _, _, rfl, (deStringE_shows h3.1).2 hk, .inl ((deBoolsE_fault h3.2).2 hb)⟩
      · next bs hk hb hs hr =>
        cases h2 with
        | @cons a _ l _ h3 h4 =>
          obtain ⟨a1, a2⟩ := a
          rw [← bitIdent_eq] at hk
          refine .inl ⟨_, _, _, rfl, (deStringE_shows h3.1).2 hk, .inr ⟨⟨_, (deBoolsE_shows h3.2).2 hb⟩, hs, ?_, rfl⟩⟩
          rintro rfl; cases h4; exact hr rfl
  | .enum y z, d, hd, e => by
    cases hd with | @enum _ f g _ _ _ h name sub =>
    rw [deValueE_ask, h .any trivial, deDefE]
    have ih := composite_fault z g sub e
    constructor
    · intro hx
      cases hf : deStringE f with
      | error e' => rw [hf] at hx; cases hx; exact .enumName ((deStringE_fault name).1 hf)
      | ok s =>
        rw [hf] at hx
        refine .enum ((deStringE_shows name).1 hf) (ih.1 ?_)
        cases hg : deCompositeE g with
        | ok w => rw [hg] at hx; cases hx
        | error e' => rw [hg] at hx; cases hx; rfl
    · intro hx
      cases hx with
      | enumName h => rw [(deStringE_fault name).2 h]
      | enum h1 h2 => rw [(deStringE_shows name).2 h1, ih.2 h2]
termination_by doc => sizeOf doc
decreasing_by
  all_goals first
    | decreasing_tactic
    | (simp only [Doc.map.sizeOf_spec]; have := List.sizeOf_lt_of_mem hb; simp only [Prod.mk.sizeOf_spec] at this; omega)
theorem composite_fault {strict : Bool} : ∀ (doc : Doc) (d : Der), Shows strict d doc → ∀ e, deCompositeE d = .error e ↔ CompositeFault strict doc e
  | .unit, d, hd, e => by
    cases hd with | unit h => rw [deCompositeE_ask, h .any trivial, deCompE]; exact ⟨(by intro h; cases h), (by intro h; cases h with | kind h => simp at h)⟩
  | .bytes _, d, hd, e => by
    cases hd with | bytes h => rw [deCompositeE_ask, h .any trivial, deCompE]; exact ⟨(by intro h; cases h), (by intro h; cases h with | kind h => simp at h)⟩
  | .bool _, d, hd, e => by
    cases hd with | bool h => rw [deCompositeE_ask, h .any trivial, deCompE]; exact kindOnly (by constructor) (by simp)
  | .num _, d, hd, e => by
    cases hd with | num h => rw [deCompositeE_ask, h .any trivial, deCompE]; exact kindOnly (by constructor) (by simp)
  | .float, d, hd, e => by
    cases hd with | float h => rw [deCompositeE_ask, h .any trivial, deCompE]; exact kindOnly (by constructor) (by simp)
  | .char _, d, hd, e => by
    cases hd with | char h => rw [deCompositeE_ask, h .any trivial, deCompE]; exact kindOnly (by constructor) (by simp)
  | .str _, d, hd, e => by
    cases hd with | str h => rw [deCompositeE_ask, h .any trivial, deCompE]; exact kindOnly (by constructor) (by simp)
  | .none, d, hd, e => by
    cases hd with | none h => rw [deCompositeE_ask, h .any trivial, deCompE]; exact kindOnly (by constructor) (by simp)
  | .some _, d, hd, e => by
    cases hd with | some h _ => rw [deCompositeE_ask, h .any trivial, deCompE]; exact kindOnly (by constructor) (by simp)
  | .enum _ _, d, hd, e => by
    cases hd with | enum h _ _ => rw [deCompositeE_ask, h .any trivial, deCompE]; exact kindOnly (by constructor) (by simp)
  | .bad _, d, hd, e => by
    cases hd with | bad h =>
    rw [deCompositeE_ask, h .any trivial, deCompE]
    constructor
    · intro h; cases h; exact .kind (by simp) (.bad rfl)
    · intro h
      cases h with | kind _ h =>
      cases h with
      | kind h => cases h
      | bad h => cases h; rfl
  | .newtype y, d, hd, e => by
    cases hd with | @newtype _ f _ h sub =>
    rw [deCompositeE_ask, h .any trivial, deCompE, composite_fault y f sub e]
    constructor
    · exact .newtype
    · intro h
      cases h with
      | newtype h => exact h
      | kind h => simp at h
  | .seq xs, d, hd, e => by
    obtain ⟨ds, h, h2⟩ := shows_seq hd
    rw [deCompositeE_ask, h .any trivial, deCompE, deValuesE_all]
    refine Iff.trans (b := allOfE deValueE ds = .error e) (by cases allOfE deValueE ds <;> simp) ?_
    rw [allOfE_error, first_through h2 (G := fun x => ∃ v, DocValue strict x v) (R := fun x => DocFault strict x e)
      (fun a b hs => by simp only [deValueE_shows hs]) (fun a b hb hs => value_fault b a hs e)]
    constructor
    · rintro ⟨pre, x, post, rfl, h1, h2⟩; exact .seq h1 h2
    · intro h
      generalize hx : Doc.seq xs = x at h
      cases h with
      | kind h => subst hx; simp at h
      | seq h1 h3 => cases hx; exact ⟨_, _, _, rfl, h1, h3⟩
      | newtype | mapKey | mapVal => cases hx
  | .map xs, d, hd, e => by
    obtain ⟨ds, h, h2⟩ := shows_map hd
    rw [deCompositeE_ask, h .any trivial, deCompE, deEntriesE_eq]
    have key : FirstError entryE ds e ↔ ∃ pre x post, xs = pre ++ x :: post ∧ (∀ y ∈ pre, (∃ s, DocName y.1 s) ∧ ∃ v, DocValue strict y.2 v) ∧
        (NameFault x.1 e ∨ (∃ s, DocName x.1 s) ∧ DocFault strict x.2 e) :=
      first_through h2 (fun a b hs => entryE_ok hs) (fun a b hb hs => entryE_error hs (by
        obtain ⟨b1, b2⟩ := b
        exact value_fault b2 a.2 hs.2 e))
    refine Iff.trans (b := allOfE entryE ds = .error e) (by cases allOfE entryE ds <;> simp) ?_
    rw [allOfE_error, key]
    constructor
    · rintro ⟨pre, ⟨k, x⟩, post, rfl, h3, h4 | ⟨⟨s, h4⟩, h5⟩⟩
      · exact .mapKey h3 h4
      · exact .mapVal h3 h4 h5
    · intro hf
      generalize hx : Doc.map xs = x at hf
      cases hf with
      | kind h => subst hx; simp at h
      | mapKey h4 h5 => cases hx; exact ⟨_, _, _, rfl, h4, .inl h5⟩
      | mapVal h4 h5 h6 => cases hx; exact ⟨_, _, _, rfl, h4, .inr ⟨⟨_, h5⟩, h6⟩⟩
      | newtype | seq => cases hx
termination_by doc => sizeOf doc
decreasing_by
  all_goals first
    | decreasing_tactic
    | (simp only [Doc.map.sizeOf_spec]; have := List.sizeOf_lt_of_mem hb; simp only [Prod.mk.sizeOf_spec] at this; omega)
end

end SV
