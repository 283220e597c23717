import Verif.Spec.ReadFault
import Verif.Props.ReadAs
import Verif.Props.DeFault
/-
Proofs for C82: the error of `from_value` is the one that `ReadFault` says.
-/
namespace SV

variable {T : Type}

/-! ### Bits -/

theorem bitFault_iff (t : Ty) (b : Bool) (e : DeErr) : t.deE (boolDer b) = .error e ↔ BitFault b t e := by
  have out : ∀ x, t.deE (boolDer b) = .error x → x = .invalidType (.bool b) t.expects ∧ t ≠ .bool ∧ t ≠ .value := by
    intro x h
    cases t with
    | bool => cases h
    | value => cases h
    | num t => simp [Ty.deE, deNumE, boolDer, Der.visit, Der.ask, Except.map, Reply.wrong, Reply.unexp] at h; simp [← h, Ty.expects]
    | char => simp [Ty.deE, deCharE, boolDer, Der.visit, Der.ask, Except.map, Reply.wrong, Reply.unexp] at h; simp [← h, Ty.expects]
    | string => simp [Ty.deE, deStringE, boolDer, Der.visit, Der.ask, Except.map, Reply.wrong, Reply.unexp] at h; simp [← h, Ty.expects]
    | bytes => simp [Ty.deE, deBytesE, boolDer, Der.visit, Der.ask, Except.map, Reply.wrong, Reply.unexp] at h; simp [← h, Ty.expects]
    | unit => simp [Ty.deE, boolDer, Der.visit, Der.ask, Reply.wrong, Reply.unexp] at h; simp [← h, Ty.expects]
    | unitStruct => simp [Ty.deE, boolDer, Der.visit, Der.ask, Reply.wrong, Reply.unexp] at h; simp [← h, Ty.expects]
    | option t => simp [Ty.deE, boolDer, Der.visit, Der.ask, Reply.wrong, Reply.unexp] at h; simp [← h, Ty.expects]
    | newtype t => simp [Ty.deE, boolDer, Der.visit, Der.ask, Reply.wrong, Reply.unexp] at h; simp [← h, Ty.expects]
    | seq t => simp [Ty.deE, boolDer, Der.visit, Der.ask, Reply.wrong, Reply.unexp] at h; simp [← h, Ty.expects]
    | tuple t => simp [Ty.deE, boolDer, Der.visit, Der.ask, Reply.wrong, Reply.unexp] at h; simp [← h, Ty.expects]
    | tupleStruct t => simp [Ty.deE, boolDer, Der.visit, Der.ask, Reply.wrong, Reply.unexp] at h; simp [← h, Ty.expects]
    | struct t => simp [Ty.deE, boolDer, Der.visit, Der.ask, structOfE, Except.map, Reply.wrong, Reply.unexp] at h; simp [← h, Ty.expects]
    | enum t => simp [Ty.deE, boolDer, Der.visit, Der.ask, Reply.wrong, Reply.unexp] at h; simp [← h, Ty.expects]
    | map c t => simp [Ty.deE, boolDer, Der.visit, Der.ask, Reply.wrong, Reply.unexp] at h; simp [← h, Ty.expects]
  constructor
  · intro h
    obtain ⟨rfl, h1, h2⟩ := out e h
    exact .mk h1 h2
  · intro h
    cases h with
    | mk h1 h2 =>
      cases h : t.deE (boolDer b) with
      | error x => rw [(out x h).1]
      | ok x =>
        exfalso
        cases t with
        | bool => exact h1 rfl
        | value => exact h2 rfl
        | num t => simp [Ty.deE, deNumE, boolDer, Der.visit, Der.ask, Except.map] at h
        | char => simp [Ty.deE, deCharE, boolDer, Der.visit, Der.ask, Except.map] at h
        | string => simp [Ty.deE, deStringE, boolDer, Der.visit, Der.ask, Except.map] at h
        | bytes => simp [Ty.deE, deBytesE, boolDer, Der.visit, Der.ask, Except.map] at h
        | struct t => simp [Ty.deE, boolDer, Der.visit, Der.ask, structOfE, Except.map] at h
        | _ => simp [Ty.deE, boolDer, Der.visit, Der.ask] at h

theorem bit_ok (t : Ty) (b : Bool) : (∃ x, t.deE (boolDer b) = .ok x) ↔ t.ofBit := by
  constructor
  · rintro ⟨x, h⟩
    by_cases h1 : t = .bool
    · exact .inl h1
    by_cases h2 : t = .value
    · exact .inr h2
    have := (bitFault_iff t b _).2 (.mk h1 h2)
    rw [h] at this; cases this
  · rintro (rfl | rfl)
    · exact ⟨.bool b, rfl⟩
    · exact ⟨_, rfl⟩

/-- Reading a list of types from a list, with the type that is named when there are too few. -/
def listE (x : Expect) : List Ty → Nat → List Der → Except DeErr (List Dat)
  | [], _, l => if l ≠ [] then .error .leftover else .ok []
  | _ :: _, i, [] => .error (.invalidLength i x)
  | t :: ts, i, d :: l => match t.deE d with
    | .error e => .error e
    | .ok y => match listE x ts (i + 1) l with
      | .error e => .error e
      | .ok ys => .ok (y :: ys)

theorem deListE_listE (ts : List Ty) (i : Nat) (l : List Der) : Ty.deListE ts i true l = listE .tuple ts i l := by
  induction ts generalizing i l with
  | nil => simp [Ty.deListE, listE]
  | cons t ts ih =>
    cases l with
    | nil => rfl
    | cons d l => simp only [Ty.deListE, listE, ih]; rfl

theorem deFieldListE_listE (fs : List (Str × Ty)) (i : Nat) (l : List Der) : Ty.deFieldListE fs i true l = listE .struct (fs.map (fun f => f.2)) i l := by
  induction fs generalizing i l with
  | nil => simp [Ty.deFieldListE, listE]
  | cons t ts ih =>
    cases l with
    | nil => rfl
    | cons d l => simp only [Ty.deFieldListE, listE, ih, List.map_cons]; rfl

theorem listE_error {x : Expect} {ts : List Ty} {bs : List Bool} {i : Nat} {e : DeErr} : listE x ts i (bs.map boolDer) = .error e ↔
    (∃ j t b, ts[j]? = some t ∧ bs[j]? = some b ∧ (∀ u ∈ ts.take j, u.ofBit) ∧ BitFault b t e) ∨
    ((∀ u ∈ ts.take bs.length, u.ofBit) ∧ bs.length < ts.length ∧ e = .invalidLength (i + bs.length) x) ∨
    ((∀ u ∈ ts, u.ofBit) ∧ ts.length < bs.length ∧ e = .leftover) := by
  induction ts generalizing bs i with
  | nil =>
    cases bs <;> simp [listE, @eq_comm _ e]
  | cons t ts ih =>
    cases bs with
    | nil => simp [listE, @eq_comm _ e]
    | cons b bs =>
      rw [List.map_cons, listE]
      cases h : t.deE (boolDer b) with
      | error e' =>
        have hb := (bitFault_iff t b e').1 h
        have hno : ¬ t.ofBit := by rw [← bit_ok t b]; rintro ⟨x, hx⟩; rw [h] at hx; cases hx
        constructor
        · intro he; cases he; exact .inl ⟨0, t, b, rfl, rfl, by simp, hb⟩
        · rintro (⟨j, u, c, h1, h2, h3, h4⟩ | ⟨h1, -⟩ | ⟨h1, -⟩)
          · cases j with
            | zero => cases h1; cases h2; rw [(bitFault_iff _ _ _).2 h4] at h; cases h; rfl
            | succ j => exact (hno (h3 t (by simp))).elim
          · exact (hno (h1 t (by simp))).elim
          · exact (hno (h1 t (by simp))).elim
      | ok y =>
        have hok : t.ofBit := (bit_ok t b).1 ⟨y, h⟩
        have hnf : ∀ e, ¬ BitFault b t e := by intro e he; rw [← bitFault_iff, h] at he; cases he
        refine Iff.trans (b := listE x ts (i + 1) (bs.map boolDer) = .error e) (by cases listE x ts (i + 1) (bs.map boolDer) <;> simp) ?_
        rw [ih]
        refine or_congr ?_ (or_congr ?_ ?_)
        · constructor
          · rintro ⟨j, u, c, h1, h2, h3, h4⟩
            refine ⟨j + 1, u, c, h1, h2, ?_, h4⟩
            intro w hw
            rcases List.mem_cons.1 hw with rfl | hw
            · exact hok
            · exact h3 w hw
          · rintro ⟨j, u, c, h1, h2, h3, h4⟩
            cases j with
            | zero => cases h1; cases h2; exact (hnf _ h4).elim
            | succ j => exact ⟨j, u, c, h1, h2, fun w hw => h3 w (by simp [hw]), h4⟩
        · have : i + 1 + bs.length = i + (bs.length + 1) := by omega
          simp [hok, this]
        · simp [hok]

theorem bitsListFault_iff {x : Expect} {ts : List Ty} {bs : List Bool} {e : DeErr} : listE x ts 0 (bs.map boolDer) = .error e ↔ BitsListFault ts x bs e := by
  rw [listE_error]
  constructor
  · rintro (⟨j, t, b, h1, h2, h3, h4⟩ | ⟨h1, h2, rfl⟩ | ⟨h1, h2, rfl⟩)
    · exact .bit h1 h2 h3 h4
    · rw [Nat.zero_add]; exact .short h1 h2
    · exact .long h1 h2
  · intro h
    cases h with
    | bit h1 h2 h3 h4 => exact .inl ⟨_, _, _, h1, h2, h3, h4⟩
    | short h1 h2 => exact .inr (.inl ⟨h1, h2, by rw [Nat.zero_add]⟩)
    | long h1 h2 => exact .inr (.inr ⟨h1, h2, rfl⟩)

theorem allBits_error (f : Der → Except DeErr Dat) (t : Ty) (bs : List Bool) (e : DeErr) (hf : ∀ b, f (boolDer b) = t.deE (boolDer b)) :
    allOfE f (bs.map boolDer) = .error e ↔ ∃ b, bs.head? = some b ∧ BitFault b t e := by
  have good : t.ofBit → ∀ bs : List Bool, ∃ l, allOfE f (bs.map boolDer) = .ok l := by
    intro ht bs
    induction bs with
    | nil => exact ⟨_, rfl⟩
    | cons b bs ih =>
      obtain ⟨l, hl⟩ := ih
      obtain ⟨x, hx⟩ := (bit_ok t b).2 ht
      rw [List.map_cons, allOfE, hf, hx, hl]
      exact ⟨_, rfl⟩
  cases bs with
  | nil => simp [allOfE]
  | cons b bs =>
    simp only [List.head?_cons, Option.some.injEq, exists_eq_left']
    rw [← bitFault_iff]
    by_cases ht : t.ofBit
    · obtain ⟨l, hl⟩ := good ht (b :: bs)
      obtain ⟨x, hx⟩ := (bit_ok t b).2 ht
      rw [hl, hx]; simp
    · rw [List.map_cons, allOfE, hf]
      cases h : t.deE (boolDer b) with
      | error e' => simp
      | ok x => exact (ht ((bit_ok t b).1 ⟨x, h⟩)).elim

theorem bitsFault_iff (t : Ty) (bs : List Bool) (e : DeErr) : t.deE (boolsDer bs) = .error e ↔ BitsFault bs t e := by
  cases t with
  | bool =>
    simp only [Ty.deE, deBoolE, boolsDer, Der.visit, Der.ask, Except.map, Reply.wrong, Reply.unexp, Except.error.injEq]
    exact ⟨by rintro rfl; exact .other (by simp), by intro h; cases h; rfl⟩
  | num t =>
    simp only [Ty.deE, deNumE, boolsDer, Der.visit, Der.ask, Except.map, Reply.wrong, Reply.unexp, Except.error.injEq]
    exact ⟨by rintro rfl; exact .other (by simp), by intro h; cases h; rfl⟩
  | char =>
    simp only [Ty.deE, deCharE, boolsDer, Der.visit, Der.ask, Except.map, Reply.wrong, Reply.unexp, Except.error.injEq]
    exact ⟨by rintro rfl; exact .other (by simp), by intro h; cases h; rfl⟩
  | string =>
    simp only [Ty.deE, deStringE, boolsDer, Der.visit, Der.ask, Except.map, Reply.wrong, Reply.unexp, Except.error.injEq]
    exact ⟨by rintro rfl; exact .other (by simp), by intro h; cases h; rfl⟩
  | unit =>
    simp only [Ty.deE, boolsDer, Der.visit, Der.ask, Reply.wrong, Reply.unexp, Except.error.injEq]
    exact ⟨by rintro rfl; exact .other (by simp), by intro h; cases h; rfl⟩
  | unitStruct =>
    simp only [Ty.deE, boolsDer, Der.visit, Der.ask, Reply.wrong, Reply.unexp, Except.error.injEq]
    exact ⟨by rintro rfl; exact .other (by simp), by intro h; cases h; rfl⟩
  | option t =>
    simp only [Ty.deE, boolsDer, Der.visit, Der.ask, Reply.wrong, Reply.unexp, Except.error.injEq]
    exact ⟨by rintro rfl; exact .other (by simp), by intro h; cases h; rfl⟩
  | enum vs =>
    simp only [Ty.deE, boolsDer, Der.visit, Der.ask, Reply.wrong, Reply.unexp, Except.error.injEq]
    exact ⟨by rintro rfl; exact .other (by simp), by intro h; cases h; rfl⟩
  | map c t =>
    simp only [Ty.deE, boolsDer, Der.visit, Der.ask, Reply.wrong, Reply.unexp, Except.error.injEq]
    exact ⟨by rintro rfl; exact .other (by simp), by intro h; cases h; rfl⟩
  | value =>
    have : ∃ x, Ty.value.deE (boolsDer bs) = .ok x := by
      have hv : Ty.value.de (boolsDer bs) = some (.value (.mk (.composite (.unnamed (bs.map (fun b => .mk (.primitive (.bool b)) ())))) ())) :=
        (bitsAs_iff .value bs _).2 (.value (boolList_unit_iff.2 rfl))
      exact ⟨_, (C73_agree .value (by simp [Ty.Proper]) (boolsDer bs)).1 _ |>.2 hv⟩
    obtain ⟨x, hx⟩ := this
    rw [hx]
    exact ⟨fun h => (by cases h), fun h => (by cases h with | other h => simp at h)⟩
  | bytes =>
    simp only [Ty.deE, deBytesE, boolsDer, Der.visit, Der.ask, mapE_error]
    refine Iff.trans (b := allOfE (Ty.num .u8).deE (bs.map boolDer) = .error e) ?_ ?_
    · have : ∀ l : List Der, (∃ e, allOfE (deNumE .u8) l = .error e ∧ allOfE (Ty.num .u8).deE l = .error e) ∨
          ∃ x y, allOfE (deNumE .u8) l = .ok x ∧ allOfE (Ty.num .u8).deE l = .ok y := by
        intro l
        induction l with
        | nil => exact .inr ⟨_, _, rfl, rfl⟩
        | cons d l ih =>
          have hd : (Ty.num .u8).deE d = (deNumE .u8 d).map .num := by rw [Ty.deE]
          rw [allOfE, allOfE, hd]
          cases deNumE .u8 d with
          | error e => exact .inl ⟨e, rfl, rfl⟩
          | ok n =>
            simp only [Except.map]
            rcases ih with ⟨e, h1, h2⟩ | ⟨x, y, h1, h2⟩
            · rw [h1, h2]; exact .inl ⟨e, rfl, rfl⟩
            · rw [h1, h2]; exact .inr ⟨_, _, rfl, rfl⟩
      rcases this (bs.map boolDer) with ⟨e', h1, h2⟩ | ⟨x, y, h1, h2⟩
      · rw [h1, h2]; simp
      · rw [h1, h2]; simp
    · rw [allBits_error _ (.num .u8) bs e (fun _ => rfl)]
      exact ⟨fun ⟨b, h1, h2⟩ => .bytes h1 h2, fun h => (by cases h with | bytes h1 h2 => exact ⟨_, h1, h2⟩ | other h => simp at h)⟩
  | seq t =>
    simp only [Ty.deE, boolsDer, Der.visit, Der.ask, mapE_error]
    rw [allBits_error _ t bs e (fun _ => rfl)]
    exact ⟨fun ⟨b, h1, h2⟩ => .seq h1 h2, fun h => (by cases h with | seq h1 h2 => exact ⟨_, h1, h2⟩ | other h => simp at h)⟩
  | tuple ts =>
    simp only [Ty.deE, boolsDer, Der.visit, Der.ask, mapE_error, deListE_listE, bitsListFault_iff]
    exact ⟨.tuple, fun h => (by cases h with | tuple h => exact h | other h => simp at h)⟩
  | tupleStruct ts =>
    simp only [Ty.deE, boolsDer, Der.visit, Der.ask, mapE_error, deListE_listE, bitsListFault_iff]
    exact ⟨.tupleStruct, fun h => (by cases h with | tupleStruct h => exact h | other h => simp at h)⟩
  | struct fs =>
    simp only [Ty.deE, boolsDer, Der.visit, Der.ask, structOfE, mapE_error, deFieldListE_listE, bitsListFault_iff]
    exact ⟨.struct, fun h => (by cases h with | struct h => exact h | other h => simp at h)⟩
  | newtype t =>
    have : (Ty.newtype t).deE (boolsDer bs) = .error e ↔ listE .newtype [t] 0 (bs.map boolDer) = .error e := by
      cases bs with
      | nil => simp [Ty.deE, boolsDer, Der.visit, Der.ask, listE]
      | cons b bs =>
        simp only [Ty.deE, boolsDer, Der.visit, Der.ask, listE, List.map_cons]
        cases t.deE (boolDer b) with
        | error e' => simp
        | ok x => cases bs <;> simp
    rw [this, bitsListFault_iff]
    exact ⟨.newtype, fun h => (by cases h with | newtype h => exact h | other h => simp at h)⟩

/-! ### Steps -/

theorem readable_iff {t : Ty} (ht : t.Proper) (v : Value T) : (∃ x, t.deE v.der = .ok x) ↔ Readable t v := by
  unfold Readable
  simp only [(C73_agree t ht v.der).1, C81_reads]

theorem readable_of_ok {t : Ty} {v : Value T} (ht : t.Proper) (h : ∃ x, t.deE v.der = .ok x) : Readable t v := (readable_iff ht v).1 h

theorem firstError_zip {A B C : Type} {f : A × B → Except DeErr C} {as : List A} {bs : List B} {e : DeErr} : FirstError f (as.zip bs) e ↔
    ∃ (i : Nat) (a : A) (b : B), as[i]? = some a ∧ bs[i]? = some b ∧ (∀ (j : Nat) (u : A) (x : B), j < i → as[j]? = some u → bs[j]? = some x → ∃ y, f (u, x) = .ok y) ∧ f (a, b) = .error e := by
  induction as generalizing bs with
  | nil => simp [FirstError]
  | cons a as ih =>
    cases bs with
    | nil => simp [FirstError]
    | cons b bs =>
      rw [List.zip_cons_cons, firstError_cons, ih]
      constructor
      · rintro (h | ⟨⟨y, hy⟩, i, u, x, h1, h2, h3, h4⟩)
        · exact ⟨0, a, b, rfl, rfl, by simp, h⟩
        · refine ⟨i + 1, u, x, h1, h2, ?_, h4⟩
          intro j u x hj hu hx
          cases j with
          | zero => cases hu; cases hx; exact ⟨y, hy⟩
          | succ j => exact h3 j u x (by omega) hu hx
      · rintro ⟨i, u, x, h1, h2, h3, h4⟩
        cases i with
        | zero => cases h1; cases h2; exact .inl h4
        | succ i => exact .inr ⟨h3 0 a b (by omega) rfl rfl, i, u, x, h1, h2, fun j u x hj => h3 (j + 1) u x (by omega), h4⟩

theorem noError_zip {A B C : Type} {f : A × B → Except DeErr C} {as : List A} {bs : List B} : NoError f (as.zip bs) ↔
    ∀ (j : Nat) (u : A) (x : B), as[j]? = some u → bs[j]? = some x → ∃ y, f (u, x) = .ok y := by
  unfold NoError
  constructor
  · intro h j u x hu hx
    refine h (u, x) (List.mem_iff_getElem?.2 ⟨j, ?_⟩)
    rw [List.getElem?_zip_eq_some]; exact ⟨hu, hx⟩
  · rintro h ⟨u, x⟩ hp
    obtain ⟨j, hj⟩ := List.mem_iff_getElem?.1 hp
    rw [List.getElem?_zip_eq_some] at hj
    exact h j u x hj.1 hj.2

theorem deVariantE_first {vs : List (Str × VTy)} {n : Str} {c : Der} {access : VHint → Reply} {e : DeErr} :
    Ty.deVariantE vs n c access = .error e ↔ (n ∉ vs.map (fun p => p.1) ∧ e = .unknownVariant n) ∨
      ∃ pre vt post, vs = pre ++ (n, vt) :: post ∧ n ∉ pre.map (fun p => p.1) ∧ vt.deE c access = .error e := by
  induction vs with
  | nil => simp [Ty.deVariantE, @eq_comm _ e]
  | cons p vs ih =>
    obtain ⟨m, vt⟩ := p
    rw [Ty.deVariantE]
    split
    · next h =>
      subst h
      constructor
      · intro h; exact .inr ⟨[], vt, vs, rfl, by simp, h⟩
      · rintro (⟨h, -⟩ | ⟨pre, vt', post, h1, h2, h3⟩)
        · simp at h
        · cases pre with
          | nil => cases h1; exact h3
          | cons q pre => cases h1; simp at h2
    · next h =>
      rw [ih]
      constructor
      · rintro (⟨h1, h2⟩ | ⟨pre, vt', post, rfl, h2, h3⟩)
        · exact .inl ⟨by simp [Ne.symm h, h1], h2⟩
        · exact .inr ⟨(m, vt) :: pre, vt', post, rfl, by simp [Ne.symm h, h2], h3⟩
      · rintro (⟨h1, h2⟩ | ⟨pre, vt', post, h1, h2, h3⟩)
        · simp only [List.map_cons, List.mem_cons, not_or] at h1
          exact .inl ⟨h1.2, h2⟩
        · cases pre with
          | nil => cases h1; exact (h rfl).elim
          | cons q pre =>
            cases h1
            simp only [List.map_cons, List.mem_cons, not_or] at h2
            exact .inr ⟨pre, vt', post, rfl, h2.2, h3⟩

theorem enumE_iff (vs : List (Str × VTy)) (v : Value T) (c : T) (e : DeErr) : (Ty.enum vs).deE v.der = .error e ↔
    (∃ n f, v.value = .variant (.mk n f) ∧ n ∉ vs.map (fun p => p.1) ∧ e = .unknownVariant n) ∨
    (∃ n f vt pre post, v.value = .variant (.mk n f) ∧ vs = pre ++ (n, vt) :: post ∧ n ∉ pre.map (fun p => p.1) ∧ VariantError vt (.mk (.composite f) c : Value T) e) ∨
    ((∃ b, v.value = .bitSequence b) ∧ e = .refused .bitsEnum) ∨
    (((∃ c, v.value = .composite c) ∨ ∃ p, v.value = .primitive p) ∧ ∃ u, ShownAs v u ∧ e = .invalidType u .enum) := by
  simp only [shownAs_iff, exists_eq_left]
  rw [Ty.deE]
  cases v with | mk d c' =>
  cases d with
  | composite f => cases f <;> simp [Value.der, Der.visit, Der.ask, ValueDef.ask, Composite.ask, Value.value, Reply.wrong, Reply.unexp, @eq_comm _ e]
  | variant x =>
    cases x with | mk n f =>
    have : (Value.mk (.variant (.mk n f)) c').der.visit .enum = .enum (strDer n) (.mk f.ask) (accessOf f.ask) := by
      simp [Value.der, Der.visit, Der.ask, ValueDef.ask, Variant.ask]
    rw [this]
    have hn : deIdentE (strDer n) = .ok n := by simp [deIdentE, strDer, Der.visit, Der.ask]
    simp only [hn, mapE_error, deVariantE_first, vtyE_iff _ f c]
    constructor
    · rintro (⟨h1, h2⟩ | ⟨pre, vt, post, h1, h2, h3⟩)
      · exact .inl ⟨n, f, rfl, h1, h2⟩
      · exact .inr (.inl ⟨n, f, vt, pre, post, rfl, h1, h2, h3⟩)
    · rintro (⟨n', f', h, h1, h2⟩ | ⟨n', f', vt, pre, post, h, h1, h2, h3⟩ | ⟨⟨b, h⟩, -⟩ | ⟨⟨b, h⟩ | ⟨b, h⟩, -⟩)
      · cases h; exact .inl ⟨h1, h2⟩
      · cases h; exact .inr ⟨pre, vt, post, h1, h2, h3⟩
      · cases h
      · cases h
      · cases h
  | bitSequence b => simp [Value.der, Der.visit, Der.ask, ValueDef.ask, Value.value, Reply.wrong, @eq_comm _ e]
  | primitive p => cases p <;> simp [Value.der, Der.visit, Der.ask, ValueDef.ask, Primitive.ask, Primitive.any, Value.value, Reply.wrong, Reply.unexp, @eq_comm _ e]

theorem fineEntries_iff {fs : List (Str × Ty)} (hf : Ty.ProperFields fs) {ps : List (Str × Value T)} :
    EntriesFine fs (ps.map (fun p => (p.1, p.2.der))) ↔ FineEntries fs ps := by
  unfold EntriesFine FineEntries
  refine and_congr ?_ ?_
  · refine forall₂_congr fun f _ => ?_
    rw [List.filter_map, List.length_map]
    rfl
  · constructor
    · intro h p hp t ht
      exact (readable_iff (properFields_mem hf _ ht) p.2).1 (h (p.1, p.2.der) (List.mem_map.2 ⟨p, hp, rfl⟩) t ht)
    · intro h q hq t ht
      obtain ⟨p, hp, rfl⟩ := List.mem_map.1 hq
      exact (readable_iff (properFields_mem hf _ ht) p.2).2 (h p hp t ht)

theorem structFault_iff {fs : List (Str × Ty)} (hf : Ty.ProperFields fs) {ps : List (Str × Value T)} {e : DeErr} : StructFault fs (ps.map (fun p => (p.1, p.2.der))) e ↔
    (∃ pre n w post t, ps = pre ++ (n, w) :: post ∧ FineEntries fs pre ∧ (n, t) ∈ fs ∧ n ∈ pre.map (fun p => p.1) ∧ e = .duplicateField n) ∨
    (∃ pre n w post t, ps = pre ++ (n, w) :: post ∧ FineEntries fs pre ∧ (n, t) ∈ fs ∧ n ∉ pre.map (fun p => p.1) ∧ t.deE w.der = .error e) ∨
    (∃ n, FineEntries fs ps ∧ FirstMissing fs (ps.map (fun p => p.1)) n ∧ e = .missingField n) := by
  have names : ∀ l : List (Str × Value T), (l.map (fun p => (p.1, p.2.der))).map (fun p => p.1) = l.map (fun p => p.1) := by
    intro l; rw [List.map_map]; rfl
  have cut : ∀ {pre : List (Str × Der)} {n d post}, ps.map (fun p => (p.1, p.2.der)) = pre ++ (n, d) :: post →
      ∃ pre' w post', ps = pre' ++ (n, w) :: post' ∧ pre = pre'.map (fun p => (p.1, p.2.der)) ∧ d = w.der := by
    intro pre n d post h
    obtain ⟨a, b, rfl, rfl, h2⟩ := List.map_eq_append_iff.1 h
    obtain ⟨⟨n', w⟩, post', rfl, h3, -⟩ := List.map_eq_cons_iff.1 h2
    cases h3
    exact ⟨a, w, post', rfl, rfl, rfl⟩
  constructor
  · intro h
    cases h with
    | duplicate split fine field twice =>
      obtain ⟨pre', w, post', rfl, rfl, rfl⟩ := cut split
      rw [names] at twice
      exact .inl ⟨pre', _, w, post', _, rfl, (fineEntries_iff hf).1 fine, field, twice, rfl⟩
    | entry split fine field once bad =>
      obtain ⟨pre', w, post', rfl, rfl, rfl⟩ := cut split
      rw [names] at once
      exact .inr (.inl ⟨pre', _, w, post', _, rfl, (fineEntries_iff hf).1 fine, field, once, bad⟩)
    | missing fine split absent needed first =>
      rw [names] at absent first
      exact .inr (.inr ⟨_, (fineEntries_iff hf).1 fine, ⟨_, _, _, split, absent, needed, first⟩, rfl⟩)
  · rintro (⟨pre, n, w, post, t, rfl, h1, h2, h3, rfl⟩ | ⟨pre, n, w, post, t, rfl, h1, h2, h3, h4⟩ | ⟨n, h1, ⟨pre, t, post, h2, h3, h4, h5⟩, rfl⟩)
    · exact .duplicate (List.map_append ..) ((fineEntries_iff hf).2 h1) h2 (by rw [names]; exact h3)
    · exact .entry (List.map_append ..) ((fineEntries_iff hf).2 h1) h2 (by rw [names]; exact h3) h4
    · exact .missing ((fineEntries_iff hf).2 h1) h2 (by rw [names]; exact h3) h4 (by rw [names]; exact h5)

theorem structBitsFault_iff {fs : List (Str × Ty)} (nd : (fs.map (fun f => f.1)).Nodup) (hf : Ty.ProperFields fs) {bs : List Bool} {e : DeErr} :
    StructFault fs [("__bitvec__values__".toList, boolsDer bs)] e ↔
    (∃ t, ("__bitvec__values__".toList, t) ∈ fs ∧ BitsFault bs t e) ∨
    (∃ n, (∀ t, ("__bitvec__values__".toList, t) ∈ fs → ∃ d, BitsAs bs t d) ∧ FirstMissing fs ["__bitvec__values__".toList] n ∧ e = .missingField n) := by
  have fine : EntriesFine fs [("__bitvec__values__".toList, boolsDer bs)] ↔ ∀ t, ("__bitvec__values__".toList, t) ∈ fs → ∃ d, BitsAs bs t d := by
    unfold EntriesFine
    have h1 : ∀ f ∈ fs, ([("__bitvec__values__".toList, boolsDer bs)].filter (fun p => decide (p.1 = f.1))).length ≤ 1 :=
      fun f _ => Nat.le_trans (List.length_filter_le _ _) (by simp)
    constructor
    · rintro ⟨-, h⟩ t ht
      obtain ⟨x, hx⟩ := h _ (List.mem_singleton.2 rfl) t ht
      exact ⟨x, (bitsAs_iff _ _ _).1 (((C73_agree t (properFields_mem hf _ ht) _).1 x).1 hx)⟩
    · intro h
      refine ⟨h1, ?_⟩
      intro p hp t ht
      cases List.mem_singleton.1 hp
      obtain ⟨d, hd⟩ := h t ht
      exact ⟨d, ((C73_agree t (properFields_mem hf _ ht) _).1 d).2 ((bitsAs_iff _ _ _).2 hd)⟩
  have empty : EntriesFine fs ([] : List (Str × Der)) := ⟨by simp, by simp⟩
  constructor
  · intro h
    cases h with
    | @duplicate pre _ _ _ _ split _ _ twice =>
      cases pre with
      | nil => simp at twice
      | cons q pre => simp at split
    | @entry pre _ _ _ _ _ split _ field _ bad =>
      cases pre with
      | nil => cases split; exact .inl ⟨_, field, (bitsFault_iff _ _ _).1 bad⟩
      | cons q pre => simp at split
    | missing h split absent needed first => exact .inr ⟨_, fine.1 h, ⟨_, _, _, split, absent, needed, first⟩, rfl⟩
  · rintro (⟨t, h1, h2⟩ | ⟨n, h1, ⟨pre, t, post, h2, h3, h4, h5⟩, rfl⟩)
    · exact .entry (pre := []) (post := []) rfl empty h1 (by simp) ((bitsFault_iff _ _ _).2 h2)
    · exact .missing (fine.2 h1) h2 h3 h4 h5

end SV
