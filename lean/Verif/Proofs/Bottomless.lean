import Verif.Model.AnyEnc
import Verif.Spec.Bottomless
import Verif.Proofs.Endless
/-
Proofs for C86.
-/
namespace SV

variable {Id Γ : Type}

/-! ### The registries of `Reg` -/

/-- A `Child` as a `ChildT`. -/
def Child.lift (c : Child Id) : ChildT Id := ⟨c.name, fun t => .ret (c.enc t), c.bit⟩

theorem seqT_ret (a b : EncM Id) : EncT.seq (.ret a) (.ret b) = .ret (.seq a b) := by
  funext out
  simp only [EncT.seq, EncT.ret, EncM.seq]
  rcases a out with ⟨_ | _, _⟩ <;> rfl

theorem mapErrT_ret (f : EErr Id → EErr Id) (a : EncM Id) : EncT.mapErr f (.ret a) = .ret (.mapErr f a) := by
  funext out
  simp only [EncT.mapErr, EncT.ret, EncM.mapErr]
  rcases a out with ⟨_ | _, _⟩ <;> rfl

theorem afterT_some {A : Type} (x : A) (f : A → EncT Id) : EncT.after (some x) f = f x := rfl

theorem findSingleTN_mono (res : Table Id) : ∀ n m t b r, n ≤ m → findSingleTN res n t b = some r → findSingleTN res m t b = some r := by
  intro n
  induction n with
  | zero => intro m t b r _ h; cases h
  | succ n ih =>
    intro m t b r hm h
    obtain ⟨m, rfl⟩ : ∃ k, m = k + 1 := ⟨m - 1, by omega⟩
    rw [findSingleTN] at h ⊢
    split at h
    · exact ih m _ _ _ (by omega) h
    · exact ih m _ _ _ (by omega) h
    · exact ih m _ _ _ (by omega) h
    · exact h

theorem skipTN_mono (res : Table Id) : ∀ n m t r, n ≤ m → skipTN res n t = some r → skipTN res m t = some r := by
  intro n
  induction n with
  | zero => intro m t r _ h; cases h
  | succ n ih =>
    intro m t r hm h
    obtain ⟨m, rfl⟩ : ∃ k, m = k + 1 := ⟨m - 1, by omega⟩
    rw [skipTN] at h ⊢
    split at h
    · exact ih m _ _ (by omega) h
    · exact ih m _ _ (by omega) h
    · exact h

theorem encBytesTN_mono (res : Table Id) (bs : List UInt8) : ∀ n m t out r, n ≤ m → encBytesTN res bs n t out = some r → encBytesTN res bs m t out = some r := by
  intro n
  induction n with
  | zero => intro m t out r _ h; cases h
  | succ n ih =>
    intro m t out r hm h
    obtain ⟨m, rfl⟩ : ∃ k, m = k + 1 := ⟨m - 1, by omega⟩
    rw [encBytesTN] at h ⊢
    generalize res t = d at h ⊢
    rcases d with _ | d
    · exact h
    · rcases d with fs | _ | u | ⟨u, k⟩ | ts | _ | _ | _
      case composite =>
        rcases fs with _ | ⟨f, _ | ⟨f', fs⟩⟩
        · exact h
        · exact ih m _ _ _ (by omega) h
        · exact h
      case tuple =>
        rcases ts with _ | ⟨u, _ | ⟨u', ts⟩⟩
        · exact h
        · exact ih m _ _ _ (by omega) h
        · exact h
      all_goals exact h

theorem findSingleT_some {res : Table Id} {t : Id} {r} : findSingleT res t = some r ↔ ∃ n, findSingleTN res n t false = some r :=
  limit_some (fun n m r h => findSingleTN_mono res n m t false r h)

theorem skipT_some {res : Table Id} {t : Id} {r} : skipT res t = some r ↔ ∃ n, skipTN res n t = some r :=
  limit_some (fun n m r h => skipTN_mono res n m t r h)

theorem findSingleTN_reg (reg : Reg Id) : ∀ n t b, reg.rank t < n → findSingleTN reg.resolve n t b = some (findSingleN reg n t b) := by
  intro n
  induction n with
  | zero => intro t b h; omega
  | succ n ih =>
    intro t b h
    rw [findSingleTN, findSingleN]
    generalize hr : reg.resolve t = d
    rcases d with _ | d
    · rfl
    · have hlt := reg.rank_lt t d
      rw [hr] at hlt
      rcases d with fs | _ | _ | ⟨u, k⟩ | ts | _ | _ | _
      case composite =>
        rcases fs with _ | ⟨f, _ | ⟨f', fs⟩⟩
        · rfl
        · exact ih _ _ (by have := hlt f.id rfl (by simp [TypeDef.inline]); omega)
        · rfl
      case tuple =>
        rcases ts with _ | ⟨u, _ | ⟨u', ts⟩⟩
        · rfl
        · exact ih _ _ (by have := hlt u rfl (by simp [TypeDef.inline]); omega)
        · rfl
      case array =>
        rcases k with _ | _ | k
        · rfl
        · exact ih _ _ (by have := hlt u rfl (by simp [TypeDef.inline]); omega)
        · rfl
      all_goals rfl

theorem findSingleT_reg (reg : Reg Id) (t : Id) : findSingleT reg.resolve t = some (findSingle reg t) :=
  findSingleT_some.2 ⟨_, findSingleTN_reg reg _ t false (Nat.lt_succ_self _)⟩

theorem skipTN_reg (reg : Reg Id) : ∀ n t, reg.rank t < n → skipTN reg.resolve n t = some (skipN reg n t) := by
  intro n
  induction n with
  | zero => intro t h; omega
  | succ n ih =>
    intro t h
    rw [skipTN, skipN]
    generalize hr : reg.resolve t = d
    rcases d with _ | d
    · rfl
    · have hlt := reg.rank_lt t d
      rw [hr] at hlt
      rcases d with fs | _ | _ | ⟨u, k⟩ | ts | _ | _ | _
      case composite =>
        rcases fs with _ | ⟨⟨_ | _, u⟩, _ | ⟨f', fs⟩⟩
        · rfl
        · exact ih _ (by have := hlt u rfl (by simp [TypeDef.inline]); omega)
        all_goals rfl
      case tuple =>
        rcases ts with _ | ⟨u, _ | ⟨u', ts⟩⟩
        · rfl
        · exact ih _ (by have := hlt u rfl (by simp [TypeDef.inline]); omega)
        · rfl
      all_goals rfl

theorem skipT_reg (reg : Reg Id) (t : Id) : skipT reg.resolve t = some (skip reg t) :=
  skipT_some.2 ⟨_, skipTN_reg reg _ t (Nat.lt_succ_self _)⟩

theorem encItemsT_lift (t : Id) (named : Bool) : ∀ (cs : List (Child Id)) k, encItemsT t named k (cs.map Child.lift) = .ret (encItems t named k cs) := by
  intro cs
  induction cs with
  | nil => intro k; rfl
  | cons c cs ih =>
    intro k
    rw [List.map_cons, encItemsT, encItems, ih]
    exact (congrArg (fun x => EncT.seq x _) (mapErrT_ret _ _)).trans (seqT_ret _ _)

theorem find_lift (p : Option Str → Bool) (cs : List (Child Id)) :
    (cs.map Child.lift).reverse.find? (fun c => p c.name) = (cs.reverse.find? (fun c => p c.name)).map Child.lift := by
  rw [← List.map_reverse, List.find?_map]
  rfl

theorem encByNameT_lift (cs : List (Child Id)) : ∀ fs, encByNameT (cs.map Child.lift) fs = .ret (encByName cs fs) := by
  intro fs
  induction fs with
  | nil => rfl
  | cons f fs ih =>
    rw [encByNameT, encByName, find_lift (fun n => n.getD [] == f.name.getD [])]
    cases cs.reverse.find? (fun c => c.name.getD [] == f.name.getD []) with
    | none => rfl
    | some c =>
      simp only [Option.map_some, ih]
      exact (congrArg (fun x => EncT.seq x _) (mapErrT_ret _ _)).trans (seqT_ret _ _)

theorem encByOrderT_lift : ∀ (cs : List (Child Id)) fs k, encByOrderT k (cs.map Child.lift) fs = .ret (encByOrder k cs fs) := by
  intro cs
  induction cs with
  | nil => intro fs k; cases fs <;> rfl
  | cons c cs ih =>
    intro fs k
    cases fs with
    | nil => rfl
    | cons f fs =>
      rw [List.map_cons, encByOrderT, encByOrder, ih]
      exact (congrArg (fun x => EncT.seq x _) (mapErrT_ret _ _)).trans (seqT_ret _ _)

theorem any_lift (cs : List (Child Id)) : (cs.map Child.lift).any (fun c => c.name.isSome) = cs.any (fun c => c.name.isSome) := by
  rw [List.any_map]; rfl

theorem encFieldsToT_lift (cs : List (Child Id)) (fs : List (Field Id)) : encFieldsToT (cs.map Child.lift) fs = .ret (encFieldsTo cs fs) := by
  rw [encFieldsToT, encFieldsTo, any_lift, List.length_map]
  split
  · exact encByNameT_lift cs fs
  · split
    · rfl
    · exact encByOrderT_lift cs fs 0

theorem encCompositeAsTypeT_lift (reg : Reg Id) (cs : List (Child Id)) (t : Id) : encCompositeAsTypeT reg.resolve (cs.map Child.lift) t = .ret (encCompositeAsType reg cs t) := by
  unfold encCompositeAsTypeT encCompositeAsType
  rw [skipT_reg, afterT_some]
  have hf := encFieldsToT_lift cs
  rw [any_lift]
  generalize reg.resolve (skip reg t) = d
  rcases d with _ | d
  · rfl
  · rcases d with fs | _ | _ | ⟨u, k⟩ | ts | _ | _ | _
    case composite =>
      generalize cs.any (fun c => c.name.isSome) = b
      rcases cs with _ | ⟨c, _ | ⟨c', cs⟩⟩
      · cases b <;> exact hf _
      · cases b
        · rfl
        · exact hf _
      · cases b <;> exact hf _
    case tuple =>
      rcases cs with _ | ⟨c, _ | ⟨c', cs⟩⟩
      · exact hf _
      · rfl
      · exact hf _
    all_goals rcases cs with _ | ⟨c, _ | ⟨c', cs⟩⟩ <;> rfl

theorem encBoolsT_lift : ∀ (cs : List (Child Id)) k, encBoolsT k (cs.map Child.lift) = encBools k cs := by
  intro cs
  induction cs with
  | nil => intro k; rfl
  | cons c cs ih => intro k; rw [List.map_cons, encBoolsT, encBools, ih]; rfl

theorem doEncodeCompositeT_lift (reg : Reg Id) (cs : List (Child Id)) (t : Id) : doEncodeCompositeT reg.resolve (cs.map Child.lift) t = .ret (doEncodeComposite reg cs t) := by
  have ha := encCompositeAsTypeT_lift reg cs t
  have hi := fun u nm => encItemsT_lift u nm cs 0
  have hb := encBoolsT_lift cs 0
  have hl : (cs.map Child.lift).length = cs.length := List.length_map _
  unfold doEncodeCompositeT doEncodeComposite
  rw [hb, hl]
  generalize reg.resolve t = d
  rcases d with _ | d
  · rcases cs with _ | ⟨c, _ | ⟨c', cs⟩⟩ <;> rfl
  · rcases d with fs | _ | u | ⟨u, k⟩ | ts | _ | _ | ⟨s, o⟩
    case composite => exact ha
    case tuple => exact ha
    case sequence => dsimp only; rw [hi]; exact seqT_ret _ _
    case array =>
      dsimp only
      rw [hi]
      split <;> rfl
    case bitSequence =>
      dsimp only
      cases encBools 0 cs <;> rfl
    all_goals rcases cs with _ | ⟨c, _ | ⟨c', cs⟩⟩ <;> rfl

theorem encLastT_lift (cs : List (Child Id)) (t : Id) (e : EErr Id) : encLastT (cs.map Child.lift) t e = .ret (encLast cs t e) := by
  funext out
  rcases cs with _ | ⟨c, _ | ⟨c', cs⟩⟩
  · rfl
  · simp only [encLastT, List.map_cons, List.map_nil, EncT.ret, encLast, Child.lift]
    rcases c.enc t [] with ⟨_ | _, _⟩ <;> rfl
  · rfl

theorem encCompositeT_lift (reg : Reg Id) (cs : List (Child Id)) (t : Id) : encCompositeT reg.resolve (cs.map Child.lift) t = .ret (encComposite reg cs t) := by
  funext out
  simp only [encCompositeT, EncT.ret, encComposite, doEncodeCompositeT_lift, findSingleT_reg, encLastT_lift]
  rcases doEncodeComposite reg cs t [] with ⟨_ | _, _⟩
  · dsimp only
    rcases findSingle reg t with ⟨u, _ | _⟩
    · rfl
    · dsimp only
      rcases doEncodeComposite reg cs u [] with ⟨_ | _, _⟩ <;> rfl
  · rfl

theorem encVariantT_lift (reg : Reg Id) (name : Str) (cs : List (Child Id)) (t : Id) : encVariantT reg.resolve name (cs.map Child.lift) t = .ret (encVariant reg name cs t) := by
  rw [encVariantT, encVariant, findSingleT_reg, afterT_some]
  generalize reg.resolve (findSingle reg t).1 = d
  rcases d with _ | d
  · rfl
  · rcases d with fs | vs | u | ⟨u, k⟩ | ts | _ | _ | ⟨s, o⟩
    case variant =>
      dsimp only
      cases vs.find? (fun d => d.name == name) with
      | none => rfl
      | some d => dsimp only; rw [encFieldsToT_lift]; exact seqT_ret _ _
    all_goals rfl

theorem encNumT_lift (reg : Reg Id) (cc : Bool) (n : Int) (t : Id) : encNumT reg.resolve cc n t = .ret (encNum reg cc n t) := by
  rw [encNumT, encNum, findSingleT_reg, afterT_some]
  generalize reg.resolve (findSingle reg t).1 = d
  rcases d with _ | d
  · rfl
  · rcases d with fs | vs | u | ⟨u, k⟩ | ts | p | w | ⟨s, o⟩
    case primitive => cases p <;> rfl
    case compact =>
      dsimp only
      rw [findSingleT_reg, afterT_some]
      generalize reg.resolve (findSingle reg w).1 = d
      rcases d with _ | d
      · rfl
      · rcases d with fs | vs | u | ⟨u, k⟩ | ts | p | w | ⟨s, o⟩
        case primitive => cases p <;> rfl
        all_goals rfl
    all_goals rfl

theorem encBytesTN_reg (reg : Reg Id) (bs : List UInt8) : ∀ n t, reg.rank t < n → encBytesTN reg.resolve bs n t = .ret (encBytesN reg bs n t) := by
  have hc : byteChildrenT reg.resolve bs = (byteChildren reg bs).map Child.lift := by
    rw [byteChildrenT, byteChildren, List.map_map]
    refine List.map_congr_left (fun b _ => ?_)
    simp only [Function.comp, Child.lift]
    congr 1
    funext t
    exact encNumT_lift reg false _ t
  intro n
  induction n with
  | zero => intro t h; omega
  | succ n ih =>
    intro t h
    rw [encBytesTN, encBytesN, hc]
    generalize hr : reg.resolve t = d
    rcases d with _ | d
    · rfl
    · have hlt := reg.rank_lt t d
      rw [hr] at hlt
      rcases d with fs | _ | u | ⟨u, k⟩ | ts | _ | _ | _
      case composite =>
        rcases fs with _ | ⟨f, _ | ⟨f', fs⟩⟩
        · rfl
        · exact ih _ (by have := hlt f.id rfl (by simp [TypeDef.inline]); omega)
        · rfl
      case tuple =>
        rcases ts with _ | ⟨u, _ | ⟨u', ts⟩⟩
        · rfl
        · exact ih _ (by have := hlt u rfl (by simp [TypeDef.inline]); omega)
        · rfl
      case array =>
        dsimp only
        rw [encItemsT_lift]
        split <;> rfl
      case sequence => dsimp only; rw [encItemsT_lift]; exact seqT_ret _ _
      all_goals rfl

theorem encBytesT_reg (reg : Reg Id) (bs : List UInt8) (t : Id) : encBytesT reg.resolve bs t = .ret (encBytesN reg bs (reg.rank t + 1) t) := by
  funext out
  exact (limit_some (fun n m r h => encBytesTN_mono reg.resolve bs n m t out r h)).2 ⟨_, congrFun (encBytesTN_reg reg bs _ t (Nat.lt_succ_self _)) out⟩

theorem encPrimitiveT_reg (reg : Reg Id) (cc : Bool) (p : Primitive) (t : Id) : encPrimitiveT reg.resolve cc p t = .ret (encPrimitive reg cc p t) := by
  cases p with
  | bool b =>
    rw [encPrimitiveT, encPrimitive, encBoolT, encBool, findSingleT_reg, afterT_some]
    generalize reg.resolve (findSingle reg t).1 = d
    rcases d with _ | d
    · rfl
    · rcases d with fs | vs | u | ⟨u, k⟩ | ts | p | w | ⟨s, o⟩
      case primitive => cases p <;> rfl
      all_goals rfl
  | char c => exact encNumT_lift reg cc _ t
  | string s =>
    rw [encPrimitiveT, encPrimitive, encStrT, encStr, findSingleT_reg, afterT_some]
    generalize reg.resolve (findSingle reg t).1 = d
    rcases d with _ | d
    · rfl
    · rcases d with fs | vs | u | ⟨u, k⟩ | ts | p | w | ⟨s, o⟩
      case primitive => cases p <;> rfl
      all_goals rfl
  | u128 n => exact encNumT_lift reg false _ t
  | i128 n => exact encNumT_lift reg false _ t
  | u256 b => exact encBytesT_reg reg _ t
  | i256 b => exact encBytesT_reg reg _ t

theorem encBitsT_reg (reg : Reg Id) (b : List Bool) (t : Id) : encBitsT reg.resolve b t = .ret (encBits reg b t) := by
  rw [encBitsT, encBits, findSingleT_reg, afterT_some]
  generalize reg.resolve (findSingle reg t).1 = d
  rcases d with _ | d
  · rfl
  · cases d <;> rfl

mutual
theorem encodeT_reg (reg : Reg Id) (cc : Bool) : (v : Value Γ) → ∀ t, v.encodeT reg.resolve cc t = .ret (v.encode reg cc t)
  | .mk (.composite c) _ => by
    intro t
    rw [Value.encodeT, ValueDef.encodeT, childrenT_reg reg cc c]
    exact encCompositeT_lift reg _ t
  | .mk (.variant (.mk n c)) _ => by
    intro t
    rw [Value.encodeT, ValueDef.encodeT, childrenT_reg reg cc c]
    exact encVariantT_lift reg n _ t
  | .mk (.primitive p) _ => encPrimitiveT_reg reg cc p
  | .mk (.bitSequence b) _ => encBitsT_reg reg b
theorem childrenT_reg (reg : Reg Id) (cc : Bool) : (c : Composite Γ) → c.encChildrenT reg.resolve cc = (c.encChildren reg cc).map Child.lift
  | .named fs => namedT_reg reg cc fs
  | .unnamed vs => unnamedT_reg reg cc vs
theorem namedT_reg (reg : Reg Id) (cc : Bool) : (fs : List (Str × Value Γ)) → encNamedT reg.resolve cc fs = (encNamed reg cc fs).map Child.lift
  | [] => rfl
  | (k, v) :: r => by
    rw [encNamedT, encNamed, List.map_cons, namedT_reg reg cc r, funext (encodeT_reg reg cc v)]
    rfl
theorem unnamedT_reg (reg : Reg Id) (cc : Bool) : (vs : List (Value Γ)) → encUnnamedT reg.resolve cc vs = (encUnnamed reg cc vs).map Child.lift
  | [] => rfl
  | v :: r => by
    rw [encUnnamedT, encUnnamed, List.map_cons, unnamedT_reg reg cc r, funext (encodeT_reg reg cc v)]
    rfl
end

/-! ### Wrappers -/

theorem chain_of {A : Type} {P : A → Prop} {R : A → A → Prop} (h : ∀ x, P x → ∃ y, R x y ∧ P y) {x : A} (hx : P x) :
    ∃ f : Nat → A, f 0 = x ∧ ∀ n, R (f n) (f (n + 1)) := by
  have h' : ∀ z : {z // P z}, ∃ w : {w // P w}, R z.1 w.1 := fun z => by
    obtain ⟨y, hy, hp⟩ := h z.1 z.2
    exact ⟨⟨y, hp⟩, hy⟩
  let g : Nat → {z // P z} := fun n => n.rec ⟨x, hx⟩ (fun _ z => (h' z).choose)
  exact ⟨fun n => (g n).1, rfl, fun n => (h' (g n)).choose_spec⟩

theorem bottomless_next {res : Table Id} {t : Id} (h : Bottomless res t) : ∃ u, WrapsIn res t u ∧ Bottomless res u := by
  obtain ⟨f, rfl, hf⟩ := h
  exact ⟨f 1, hf 0, fun n => f (n + 1), rfl, fun n => hf (n + 1)⟩

theorem wrapsIn_unique {res : Table Id} {t u w : Id} (h : WrapsIn res t u) (h' : WrapsIn res t w) : u = w := by
  cases h with
  | struct h => cases h' with
    | struct h' => rw [h] at h'; simp at h'; rw [h']
    | tuple h' => rw [h] at h'; simp at h'
    | array h' => rw [h] at h'; simp at h'
  | tuple h => cases h' with
    | struct h' => rw [h] at h'; simp at h'
    | tuple h' => rw [h] at h'; simpa using h'
    | array h' => rw [h] at h'; simp at h'
  | array h => cases h' with
    | struct h' => rw [h] at h'; simp at h'
    | tuple h' => rw [h] at h'; simp at h'
    | array h' => rw [h] at h'; simpa using h'

theorem bottomless_wraps {res : Table Id} {t u : Id} (h : Bottomless res t) (hw : WrapsIn res t u) : Bottomless res u := by
  obtain ⟨w, h1, h2⟩ := bottomless_next h
  rw [wrapsIn_unique hw h1]; exact h2

/-- One step of `findSingleTN`. -/
theorem findSingleTN_step (res : Table Id) (t : Id) :
    (∃ u, WrapsIn res t u ∧ ∀ n b, findSingleTN res (n + 1) t b = findSingleTN res n u true) ∨ ((∀ u, ¬ WrapsIn res t u) ∧ ∀ n b, findSingleTN res (n + 1) t b = some (t, b)) := by
  by_cases h1 : ∃ u, res t = some (.tuple [u])
  · obtain ⟨u, h⟩ := h1
    exact .inl ⟨u, .tuple h, fun n b => by rw [findSingleTN, h]⟩
  · by_cases h2 : ∃ f, res t = some (.composite [f])
    · obtain ⟨f, h⟩ := h2
      exact .inl ⟨f.id, .struct h, fun n b => by rw [findSingleTN, h]⟩
    · by_cases h3 : ∃ u, res t = some (.array u 1)
      · obtain ⟨u, h⟩ := h3
        exact .inl ⟨u, .array h, fun n b => by rw [findSingleTN, h]; rfl⟩
      · refine .inr ⟨?_, fun n b => ?_⟩
        · rintro u (h | h | h)
          · exact h2 ⟨_, h⟩
          · exact h1 ⟨_, h⟩
          · exact h3 ⟨_, h⟩
        · rw [findSingleTN]
          split
          · next h => exact absurd ⟨_, h⟩ h1
          · next h => exact absurd ⟨_, h⟩ h2
          · next h => exact absurd ⟨_, h⟩ h3
          · rfl

theorem findSingleTN_flag (res : Table Id) : ∀ n t b b', findSingleTN res n t b = none → findSingleTN res n t b' = none := by
  intro n
  cases n with
  | zero => intros; rfl
  | succ n =>
    intro t b b' h
    rcases findSingleTN_step res t with ⟨u, -, he⟩ | ⟨-, he⟩
    · rw [he] at h ⊢; exact h
    · rw [he] at h; cases h

theorem findSingleT_none {res : Table Id} {t : Id} : findSingleT res t = none ↔ Bottomless res t := by
  rw [findSingleT, limit_none]
  constructor
  · intro h
    refine chain_of (P := fun t => ∀ n, findSingleTN res n t false = none) (fun t ht => ?_) h
    rcases findSingleTN_step res t with ⟨u, hw, he⟩ | ⟨-, he⟩
    · exact ⟨u, hw, fun n => findSingleTN_flag res n u true false (by rw [← he n false]; exact ht _)⟩
    · have := ht 1; rw [he] at this; cases this
  · intro h n
    have : ∀ n t b, Bottomless res t → findSingleTN res n t b = none := by
      intro n
      induction n with
      | zero => intros; rfl
      | succ n ih =>
        intro t b h
        rcases findSingleTN_step res t with ⟨u, hw, he⟩ | ⟨hw, -⟩
        · rw [he]; exact ih u true (bottomless_wraps h hw)
        · obtain ⟨u, hu, -⟩ := bottomless_next h; exact absurd hu (hw u)
    exact this n t false h

theorem findSingleTN_closed {res : Table Id} {Q : Id → Prop} (hQ : ∀ a b, Q a → WrapsIn res a b → Q b) : ∀ n t b r, findSingleTN res n t b = some r → Q t → Q r.1 ∧ ∀ u, ¬ WrapsIn res r.1 u := by
  intro n
  induction n with
  | zero => intro t b r h; cases h
  | succ n ih =>
    intro t b r h hq
    rcases findSingleTN_step res t with ⟨u, hw, he⟩ | ⟨hw, he⟩
    · rw [he] at h; exact ih u true r h (hQ _ _ hq hw)
    · rw [he] at h; cases h; exact ⟨hq, hw⟩

theorem findSingleT_closed {res : Table Id} {Q : Id → Prop} (hQ : ∀ a b, Q a → WrapsIn res a b → Q b) {t : Id} {r} (h : findSingleT res t = some r) (hq : Q t) : Q r.1 := by
  obtain ⟨n, h⟩ := findSingleT_some.1 h
  exact (findSingleTN_closed hQ n t false r h hq).1

theorem skipTN_step (res : Table Id) (t : Id) :
    (∃ u, WrapsIn res t u ∧ ∀ n, skipTN res (n + 1) t = skipTN res n u) ∨ ((∀ u, res t ≠ some (.tuple [u])) ∧ ∀ n, skipTN res (n + 1) t = some t) := by
  by_cases h1 : ∃ u, res t = some (.tuple [u])
  · obtain ⟨u, h⟩ := h1
    exact .inl ⟨u, .tuple h, fun n => by rw [skipTN, h]⟩
  · by_cases h2 : ∃ u, res t = some (.composite [⟨none, u⟩])
    · obtain ⟨u, h⟩ := h2
      exact .inl ⟨u, .struct (f := ⟨none, u⟩) h, fun n => by rw [skipTN, h]⟩
    · refine .inr ⟨fun u h => h1 ⟨u, h⟩, fun n => ?_⟩
      rw [skipTN]
      split
      · next h => exact absurd ⟨_, h⟩ h2
      · next h => exact absurd ⟨_, h⟩ h1
      · rfl

theorem skipT_none {res : Table Id} {t : Id} (h : skipT res t = none) : Bottomless res t := by
  rw [skipT, limit_none] at h
  refine chain_of (P := fun t => ∀ n, skipTN res n t = none) (fun t ht => ?_) h
  rcases skipTN_step res t with ⟨u, hw, he⟩ | ⟨-, he⟩
  · exact ⟨u, hw, fun n => by rw [← he n]; exact ht _⟩
  · have := ht 1; rw [he] at this; cases this

theorem skipT_closed {res : Table Id} {Q : Id → Prop} (hQ : ∀ a b, Q a → WrapsIn res a b → Q b) {t u : Id} (h : skipT res t = some u) (hq : Q t) : Q u := by
  obtain ⟨n, h⟩ := skipT_some.1 h
  clear * - hQ h hq
  induction n generalizing t with
  | zero => cases h
  | succ n ih =>
    rcases skipTN_step res t with ⟨w, hw, he⟩ | ⟨-, he⟩
    · rw [he] at h; exact ih (hQ _ _ hq hw) h
    · rw [he] at h; cases h; exact hq

theorem wrapsIn_mentions {res : Table Id} {t u : Id} (h : WrapsIn res t u) : ∃ d, res t = some d ∧ u ∈ d.mentions := by
  cases h with
  | struct h => exact ⟨_, h, by simp [TypeDef.mentions]⟩
  | tuple h => exact ⟨_, h, by simp [TypeDef.mentions]⟩
  | array h => exact ⟨_, h, by simp [TypeDef.mentions]⟩

/-! ### Encoding returns -/

/-- The function returns. -/
def EncReturns (e : EncT Id) : Prop := ∀ out, ∃ r, e out = some r

theorem returns_ret (a : EncM Id) : EncReturns (.ret a) := fun out => ⟨_, rfl⟩

theorem returns_seq {a b : EncT Id} (ha : EncReturns a) (hb : EncReturns b) : EncReturns (.seq a b) := by
  intro out
  obtain ⟨⟨r, o⟩, h⟩ := ha out
  rw [EncT.seq, h]
  rcases r with e | _
  · exact ⟨_, rfl⟩
  · exact hb o

theorem returns_mapErr {a : EncT Id} {f} (ha : EncReturns a) : EncReturns (.mapErr f a) := by
  intro out
  obtain ⟨⟨r, o⟩, h⟩ := ha out
  rw [EncT.mapErr, h]
  rcases r with e | _ <;> exact ⟨_, rfl⟩

theorem returns_after {A : Type} {a : Option A} {f : A → EncT Id} (ha : a ≠ none) (hf : ∀ x, a = some x → EncReturns (f x)) : EncReturns (.after a f) := by
  rcases a with _ | x
  · exact absurd rfl ha
  · exact hf x rfl

theorem returns_items {t : Id} {named : Bool} : ∀ {cs : List (ChildT Id)} {k : Nat}, (∀ c ∈ cs, EncReturns (c.enc t)) → EncReturns (encItemsT t named k cs) := by
  intro cs
  induction cs with
  | nil => intro k _; exact returns_ret _
  | cons c cs ih =>
    intro k h
    exact returns_seq (returns_mapErr (h c (by simp))) (ih (fun c hc => h c (by simp [hc])))

/-- The types at which things are encoded: closed, and without wrappers without end. -/
structure FineSet (res : Table Id) (S : Id → Prop) : Prop where
  closed : ∀ a d w, S a → res a = some d → w ∈ d.mentions → S w
  fine : ∀ a, S a → ¬ Bottomless res a

theorem FineSet.wraps {res : Table Id} {S : Id → Prop} (hS : FineSet res S) : ∀ a b, S a → WrapsIn res a b → S b := by
  intro a b ha hw
  obtain ⟨d, hd, hm⟩ := wrapsIn_mentions hw
  exact hS.closed a d b ha hd hm

theorem returns_fields {S : Id → Prop} {cs : List (ChildT Id)} (hc : ∀ c ∈ cs, ∀ u, S u → EncReturns (c.enc u)) {fs : List (Field Id)} (hf : ∀ f ∈ fs, S f.id) :
    EncReturns (encFieldsToT cs fs) := by
  rw [encFieldsToT]
  split
  · clear * - hc hf
    induction fs with
    | nil => exact returns_ret _
    | cons f fs ih =>
      rw [encByNameT]
      split
      · exact returns_ret _
      · next c h =>
        have := List.mem_of_find?_eq_some h
        exact returns_seq (returns_mapErr (hc c (by simpa using this) _ (hf f (by simp)))) (ih (fun f h => hf f (by simp [h])))
  · split
    · exact returns_ret _
    · clear * - hc hf
      generalize 0 = k
      induction cs generalizing fs k with
      | nil => rw [encByOrderT]; exact returns_ret _; rintro _ _ _ _ h; cases h
      | cons c cs ih =>
        cases fs with
        | nil => exact returns_ret _
        | cons f fs => exact returns_seq (returns_mapErr (hc c (by simp) _ (hf f (by simp)))) (ih (fun c h => hc c (by simp [h])) (fun f h => hf f (by simp [h])) _)

theorem returns_doEncode {res : Table Id} {S : Id → Prop} (hS : FineSet res S) {cs : List (ChildT Id)} (hc : ∀ c ∈ cs, ∀ u, S u → EncReturns (c.enc u)) {t : Id} (ht : S t) :
    EncReturns (doEncodeCompositeT res cs t) := by
  have hca : EncReturns (encCompositeAsTypeT res cs t) := by
    refine returns_after (fun h => hS.fine t ht (skipT_none h)) (fun u hu => ?_)
    have hu : S u := skipT_closed hS.wraps hu ht
    split
    · exact returns_ret _
    · next fs hr =>
      have hf := returns_fields hc (fs := fs) (fun f h => hS.closed u _ _ hu hr (List.mem_map_of_mem h))
      split
      · exact hc _ (by simp) u hu
      · exact hf
    · next ts hr =>
      split
      · exact hc _ (by simp) u hu
      · exact returns_fields hc (fun f h => by
          obtain ⟨w, hw, rfl⟩ := List.mem_map.1 h
          exact hS.closed u _ _ hu hr hw)
    · split
      · exact hc _ (by simp) u hu
      · exact returns_ret _
  unfold doEncodeCompositeT
  split
  · exact hca
  · exact hca
  · next u hr => exact returns_seq (returns_ret _) (returns_items (fun c h => hc c h u (hS.closed t _ _ ht hr (by simp [TypeDef.mentions]))))
  · next u n hr =>
    split
    · exact returns_ret _
    · exact returns_items (fun c h => hc c h u (hS.closed t _ _ ht hr (by simp [TypeDef.mentions])))
  · split <;> exact returns_ret _
  · split
    · exact hc _ (by simp) t ht
    · exact returns_ret _

theorem returns_composite {res : Table Id} {S : Id → Prop} (hS : FineSet res S) {cs : List (ChildT Id)} (hc : ∀ c ∈ cs, ∀ u, S u → EncReturns (c.enc u)) {t : Id} (ht : S t) :
    EncReturns (encCompositeT res cs t) := by
  have hl : ∀ u e, S u → EncReturns (encLastT cs u e) := by
    intro u e hu out
    rcases cs with _ | ⟨c, _ | ⟨c', cs⟩⟩
    · exact ⟨_, rfl⟩
    · obtain ⟨⟨r, o⟩, h⟩ := hc c (by simp) u hu []
      simp only [encLastT, h]
      rcases r with e | _ <;> exact ⟨_, rfl⟩
    · exact ⟨_, rfl⟩
  intro out
  obtain ⟨⟨r, o⟩, h⟩ := returns_doEncode hS hc ht []
  rw [encCompositeT, h]
  rcases r with e | _
  · cases hf : findSingleT res t with
    | none => exact absurd (findSingleT_none.1 hf) (hS.fine t ht)
    | some p =>
      obtain ⟨u, b⟩ := p
      have hu : S u := findSingleT_closed hS.wraps hf ht
      cases b
      · exact hl t e ht out
      · obtain ⟨⟨r, o⟩, h⟩ := returns_doEncode hS hc hu []
        simp only [h]
        rcases r with e' | _
        · exact hl u e hu out
        · exact ⟨_, rfl⟩
  · exact ⟨_, rfl⟩

theorem returns_variant {res : Table Id} {S : Id → Prop} (hS : FineSet res S) {cs : List (ChildT Id)} (hc : ∀ c ∈ cs, ∀ u, S u → EncReturns (c.enc u)) {t : Id} (ht : S t) (name : Str) :
    EncReturns (encVariantT res name cs t) := by
  refine returns_after (fun h => hS.fine t ht (findSingleT_none.1 h)) (fun p hp => ?_)
  have hu : S p.1 := findSingleT_closed hS.wraps hp ht
  split
  · next ds hr =>
    split
    · exact returns_ret _
    · next d hd =>
      refine returns_seq (returns_ret _) (returns_fields hc (fun f h => hS.closed _ _ _ hu hr ?_))
      rw [TypeDef.mentions, List.mem_flatten]
      exact ⟨_, List.mem_map_of_mem (List.mem_of_find?_eq_some hd), List.mem_map_of_mem h⟩
  · exact returns_ret _
  · exact returns_ret _

theorem returns_num {res : Table Id} {S : Id → Prop} (hS : FineSet res S) {t : Id} (ht : S t) (cc : Bool) (n : Int) : EncReturns (encNumT res cc n t) := by
  refine returns_after (fun h => hS.fine t ht (findSingleT_none.1 h)) (fun p hp => ?_)
  have hu : S p.1 := findSingleT_closed hS.wraps hp ht
  split
  case h_12 w hr =>
    refine returns_after (fun h => hS.fine w (hS.closed _ _ _ hu hr (by simp [TypeDef.mentions])) (findSingleT_none.1 h)) (fun q hq => ?_)
    split <;> exact returns_ret _
  all_goals exact returns_ret _

theorem encBytesT_none {res : Table Id} {bs : List UInt8} {t : Id} {out : List UInt8} : encBytesT res bs t out = none ↔ ∀ n, encBytesTN res bs n t out = none := limit_none

/-- One step of `encBytesTN`. -/
theorem encBytesTN_step (res : Table Id) (bs : List UInt8) (t : Id) :
    (∃ u, WrapsIn res t u ∧ (∀ u k, res t ≠ some (.array u k)) ∧ ∀ n, encBytesTN res bs (n + 1) t = encBytesTN res bs n u) ∨
    ((∀ f, res t ≠ some (.composite [f])) ∧ (∀ u, res t ≠ some (.tuple [u])) ∧ ∀ n, encBytesTN res bs (n + 1) t = encBytesTN res bs 1 t) := by
  by_cases h1 : ∃ u, res t = some (.tuple [u])
  · obtain ⟨u, h⟩ := h1
    exact .inl ⟨u, .tuple h, by simp [h], fun n => by rw [encBytesTN, h]⟩
  · by_cases h2 : ∃ f, res t = some (.composite [f])
    · obtain ⟨f, h⟩ := h2
      exact .inl ⟨f.id, .struct h, by simp [h], fun n => by rw [encBytesTN, h]⟩
    · refine .inr ⟨fun f h => h2 ⟨f, h⟩, fun u h => h1 ⟨u, h⟩, fun n => ?_⟩
      rw [encBytesTN, encBytesTN]
      generalize hr : res t = d at h1 h2 ⊢
      rcases d with _ | d
      · rfl
      · rcases d with fs | _ | u | ⟨u, k⟩ | ts | _ | _ | _
        case composite =>
          rcases fs with _ | ⟨f, _ | ⟨f', fs⟩⟩
          · rfl
          · exact absurd ⟨f, rfl⟩ h2
          · rfl
        case tuple =>
          rcases ts with _ | ⟨u, _ | ⟨u', ts⟩⟩
          · rfl
          · exact absurd ⟨u, rfl⟩ h1
          · rfl
        all_goals rfl

theorem returns_bytes1 {res : Table Id} {S : Id → Prop} (hS : FineSet res S) {t : Id} (ht : S t) (bs : List UInt8) (h1 : ∀ f, res t ≠ some (.composite [f])) (h2 : ∀ u, res t ≠ some (.tuple [u])) :
    EncReturns (encBytesTN res bs 1 t) := by
  have hi : ∀ u, S u → EncReturns (encItemsT u false 0 (byteChildrenT res bs)) := by
    intro u hu
    refine returns_items (fun c hc => ?_)
    obtain ⟨b, -, rfl⟩ := List.mem_map.1 hc
    exact returns_num hS hu _ _
  rw [encBytesTN]
  split
  · next u k hr =>
    split
    · exact returns_ret _
    · exact hi u (hS.closed _ _ _ ht hr (by simp [TypeDef.mentions]))
  · next u hr => exact returns_seq (returns_ret _) (hi u (hS.closed _ _ _ ht hr (by simp [TypeDef.mentions])))
  · next f hr => exact absurd hr (h1 f)
  · next u hr => exact absurd hr (h2 u)
  · exact returns_ret _
  · exact returns_ret _

theorem returns_bytes {res : Table Id} {S : Id → Prop} (hS : FineSet res S) {t : Id} (ht : S t) (bs : List UInt8) : EncReturns (encBytesT res bs t) := by
  intro out
  cases h : encBytesT res bs t out with
  | some r => exact ⟨r, rfl⟩
  | none =>
    exfalso
    rw [encBytesT_none] at h
    refine hS.fine t ht (chain_of (P := fun t => S t ∧ ∀ n, encBytesTN res bs n t out = none) (fun t ⟨ht, hn⟩ => ?_) ⟨ht, h⟩)
    rcases encBytesTN_step res bs t with ⟨u, hw, -, he⟩ | ⟨h1, h2, -⟩
    · exact ⟨u, hw, hS.wraps _ _ ht hw, fun n => by rw [← he n]; exact hn _⟩
    · obtain ⟨r, hr⟩ := returns_bytes1 hS ht bs h1 h2 out
      rw [hn 1] at hr; cases hr

theorem returns_primitive {res : Table Id} {S : Id → Prop} (hS : FineSet res S) {t : Id} (ht : S t) (cc : Bool) (p : Primitive) : EncReturns (encPrimitiveT res cc p t) := by
  cases p with
  | bool b =>
    refine returns_after (fun h => hS.fine t ht (findSingleT_none.1 h)) (fun p _ => ?_)
    split <;> exact returns_ret _
  | char c => exact returns_num hS ht _ _
  | string s =>
    refine returns_after (fun h => hS.fine t ht (findSingleT_none.1 h)) (fun p _ => ?_)
    split <;> exact returns_ret _
  | u128 n => exact returns_num hS ht _ _
  | i128 n => exact returns_num hS ht _ _
  | u256 b => exact returns_bytes hS ht _
  | i256 b => exact returns_bytes hS ht _

mutual
theorem returns_value {res : Table Id} {S : Id → Prop} (hS : FineSet res S) (cc : Bool) : (v : Value Γ) → ∀ t, S t → EncReturns (v.encodeT res cc t)
  | .mk (.composite c) _ => fun t ht => by
    rw [Value.encodeT, ValueDef.encodeT]
    exact returns_composite hS (returns_children hS cc c) ht
  | .mk (.variant (.mk n c)) _ => fun t ht => by
    rw [Value.encodeT, ValueDef.encodeT]
    exact returns_variant hS (returns_children hS cc c) ht n
  | .mk (.primitive p) _ => fun t ht => returns_primitive hS ht cc p
  | .mk (.bitSequence b) _ => fun t ht => by
    rw [Value.encodeT, ValueDef.encodeT]
    refine returns_after (fun h => hS.fine t ht (findSingleT_none.1 h)) (fun p _ => ?_)
    split <;> exact returns_ret _
theorem returns_children {res : Table Id} {S : Id → Prop} (hS : FineSet res S) (cc : Bool) : (c : Composite Γ) → ∀ x ∈ c.encChildrenT res cc, ∀ u, S u → EncReturns (x.enc u)
  | .named fs => returns_named hS cc fs
  | .unnamed vs => returns_unnamed hS cc vs
theorem returns_named {res : Table Id} {S : Id → Prop} (hS : FineSet res S) (cc : Bool) : (fs : List (Str × Value Γ)) → ∀ x ∈ encNamedT res cc fs, ∀ u, S u → EncReturns (x.enc u)
  | [] => fun _ h => by cases h
  | (k, v) :: r => fun x h u hu => by
    rw [encNamedT] at h
    rcases List.mem_cons.1 h with rfl | h
    · exact returns_value hS cc v u hu
    · exact returns_named hS cc r x h u hu
theorem returns_unnamed {res : Table Id} {S : Id → Prop} (hS : FineSet res S) (cc : Bool) : (vs : List (Value Γ)) → ∀ x ∈ encUnnamedT res cc vs, ∀ u, S u → EncReturns (x.enc u)
  | [] => fun _ h => by cases h
  | v :: r => fun x h u hu => by
    rw [encUnnamedT] at h
    rcases List.mem_cons.1 h with rfl | h
    · exact returns_value hS cc v u hu
    · exact returns_unnamed hS cc r x h u hu
end

/-! ### Encoding does not return -/

/-- The function does not succeed: it fails, or never returns. -/
def NeverOk (e : EncT Id) : Prop := ∀ out b, e out ≠ some (.ok (), b)

theorem neverOk_fail (k : EKind Id) : NeverOk (.ret (.fail k)) := fun _ _ h => by cases h

theorem neverOk_seq {a b : EncT Id} (ha : NeverOk a) : NeverOk (.seq a b) := by
  intro out o h
  rw [EncT.seq] at h
  have := ha out
  rcases ho : a out with _ | ⟨_ | _, o'⟩ <;> rw [ho] at h
  · cases h
  · cases h
  · exact this _ ho

theorem neverOk_mapErr {a : EncT Id} {f} (ha : NeverOk a) : NeverOk (.mapErr f a) := by
  intro out o h
  rw [EncT.mapErr] at h
  have := ha out
  rcases ho : a out with _ | ⟨_ | _, o'⟩ <;> rw [ho] at h
  · cases h
  · cases h
  · exact this _ ho

theorem neverOk_after_none {A : Type} {a : Option A} {f : A → EncT Id} (h : a = none) : NeverOk (.after a f) := by
  subst h
  intro out b h
  cases h

theorem neverOk_after {A : Type} {a : Option A} {f : A → EncT Id} (h : ∀ x, a = some x → NeverOk (f x)) : NeverOk (.after a f) := by
  rcases a with _ | x
  · intro out b h; cases h
  · exact h x rfl

theorem neverOk_fields {res : Table Id} {cs : List (ChildT Id)} (hc : ∀ c ∈ cs, ∀ u, Bottomless res u → NeverOk (c.enc u)) {f : Field Id} (hf : Bottomless res f.id) : NeverOk (encFieldsToT cs [f]) := by
  rw [encFieldsToT]
  split
  · rw [encByNameT]
    split
    · exact neverOk_fail _
    · next c h =>
      have := List.mem_of_find?_eq_some h
      exact neverOk_seq (neverOk_mapErr (hc c (by simpa using this) _ hf))
  · split
    · exact neverOk_fail _
    · next h =>
      rcases cs with _ | ⟨c, cs⟩
      · simp at h
      · exact neverOk_seq (neverOk_mapErr (hc c (by simp) _ hf))

theorem neverOk_doEncode {res : Table Id} {cs : List (ChildT Id)} (hc : ∀ c ∈ cs, ∀ u, Bottomless res u → NeverOk (c.enc u)) {t : Id} (ht : Bottomless res t) :
    NeverOk (doEncodeCompositeT res cs t) := by
  have hca : NeverOk (encCompositeAsTypeT res cs t) := by
    refine neverOk_after (fun u hu => ?_)
    have hu : Bottomless res u := skipT_closed (Q := Bottomless res) (fun _ _ => bottomless_wraps) hu ht
    obtain ⟨w, hw, hb⟩ := bottomless_next hu
    cases hw with
    | @struct f hr =>
      rw [hr]
      dsimp only
      have hf := neverOk_fields hc hb
      split
      · exact hc _ (by simp) u hu
      · exact hf
    | tuple hr =>
      rw [hr]
      dsimp only
      split
      · exact hc _ (by simp) u hu
      · exact neverOk_fields hc (f := ⟨none, w⟩) hb
    | array hr =>
      rw [hr]
      dsimp only
      split
      · exact hc _ (by simp) u hu
      · exact neverOk_fail _
  obtain ⟨w, hw, hb⟩ := bottomless_next ht
  cases hw with
  | struct hr => unfold doEncodeCompositeT; rw [hr]; exact hca
  | tuple hr => unfold doEncodeCompositeT; rw [hr]; exact hca
  | array hr =>
    unfold doEncodeCompositeT
    rw [hr]
    dsimp only
    split
    · exact neverOk_fail _
    · next h =>
      rcases cs with _ | ⟨c, cs⟩
      · simp at h
      · exact neverOk_seq (neverOk_mapErr (hc c (by simp) _ hb))

/-- A composite at a type that is a wrapper without end. -/
theorem composite_bottomless {res : Table Id} {cs : List (ChildT Id)} (hc : ∀ c ∈ cs, ∀ u, Bottomless res u → NeverOk (c.enc u)) {t : Id} (ht : Bottomless res t) (out : List UInt8) :
    encCompositeT res cs t out = none := by
  rw [encCompositeT]
  have := neverOk_doEncode hc ht []
  rcases h : doEncodeCompositeT res cs t [] with _ | ⟨_ | _, o⟩
  · rfl
  · simp only [findSingleT_none.2 ht]
  · exact absurd h (this o)

theorem bytes_neverOk {res : Table Id} {bs : List UInt8} (hl : bs.length ≠ 1) {t : Id} (ht : Bottomless res t) : NeverOk (encBytesT res bs t) := by
  intro out b h
  obtain ⟨n, h⟩ := (limit_some (fun n m r h => encBytesTN_mono res bs n m t out r h)).1 h
  clear * - hl ht h
  induction n generalizing t with
  | zero => cases h
  | succ n ih =>
    obtain ⟨w, hw, hb⟩ := bottomless_next ht
    rw [encBytesTN] at h
    cases hw with
    | struct hr => rw [hr] at h; exact ih hb h
    | tuple hr => rw [hr] at h; exact ih hb h
    | array hr => rw [hr] at h; simp only [hl, ne_eq, not_false_iff, ite_true] at h; cases h

theorem bytes_bare {res : Table Id} {bs : List UInt8} {t : Id} (ht : BottomlessBare res t) (out : List UInt8) : encBytesT res bs t out = none := by
  rw [encBytesT_none]
  intro n
  induction n generalizing t with
  | zero => rfl
  | succ n ih =>
    obtain ⟨f, rfl, hf⟩ := ht
    have hn : BottomlessBare res (f 1) := ⟨fun n => f (n + 1), rfl, fun n => hf (n + 1)⟩
    obtain ⟨hw, ha⟩ := hf 0
    rw [encBytesTN]
    generalize hg : f (0 + 1) = u at hw
    have hg : f 1 = u := hg
    rw [hg] at hn
    cases hw with
    | struct hr => rw [hr]; exact ih hn
    | tuple hr => rw [hr]; exact ih hn
    | array hr => exact absurd hr (ha _ _)

theorem bytes_not_bare {res : Table Id} {bs : List UInt8} (hl : bs.length ≠ 1) {t : Id} (ht : Bottomless res t) (hb : ¬ BottomlessBare res t) (out : List UInt8) :
    encBytesT res bs t out = some (.error (.of (.wrongLength bs.length 1)), out) := by
  cases he : encBytesT res bs t out with
  | none =>
    exfalso
    rw [encBytesT_none] at he
    refine hb (chain_of (P := fun t => Bottomless res t ∧ ∀ n, encBytesTN res bs n t out = none) (R := fun t u => WrapsIn res t u ∧ ∀ u k, res t ≠ some (.array u k)) (fun t ⟨ht, hn⟩ => ?_) ⟨ht, he⟩)
    rcases encBytesTN_step res bs t with ⟨u, hw, ha, he⟩ | ⟨h1, h2, -⟩
    · exact ⟨u, ⟨hw, ha⟩, bottomless_wraps ht hw, fun n => by rw [← he n]; exact hn _⟩
    · obtain ⟨w, hw, -⟩ := bottomless_next ht
      cases hw with
      | struct hr => exact absurd hr (h1 _)
      | tuple hr => exact absurd hr (h2 _)
      | array hr =>
        have := hn 1
        rw [encBytesTN, hr] at this
        simp only [hl, ne_eq, not_false_iff, ite_true] at this
        cases this
  | some r =>
    obtain ⟨n, h⟩ := (limit_some (fun n m r h => encBytesTN_mono res bs n m t out r h)).1 he
    congr 1
    clear * - hl ht h
    induction n generalizing t with
    | zero => cases h
    | succ n ih =>
      obtain ⟨w, hw, hb⟩ := bottomless_next ht
      rw [encBytesTN] at h
      cases hw with
      | struct hr => rw [hr] at h; exact ih hb h
      | tuple hr => rw [hr] at h; exact ih hb h
      | array hr => rw [hr] at h; simp only [hl, ne_eq, not_false_iff, ite_true] at h; cases h; rfl

mutual
theorem neverOk_value {res : Table Id} (cc : Bool) : (v : Value Γ) → ∀ t, Bottomless res t → NeverOk (v.encodeT res cc t)
  | .mk (.composite c) _ => fun t ht out b h => by
    rw [Value.encodeT, ValueDef.encodeT, composite_bottomless (neverOk_children cc c) ht] at h
    cases h
  | .mk (.variant (.mk n c)) _ => fun t ht => by
    rw [Value.encodeT, ValueDef.encodeT]
    exact neverOk_after_none (findSingleT_none.2 ht)
  | .mk (.primitive p) _ => fun t ht => by
    rw [Value.encodeT, ValueDef.encodeT]
    cases p with
    | bool b => exact neverOk_after_none (findSingleT_none.2 ht)
    | char c => exact neverOk_after_none (findSingleT_none.2 ht)
    | string s => exact neverOk_after_none (findSingleT_none.2 ht)
    | u128 n => exact neverOk_after_none (findSingleT_none.2 ht)
    | i128 n => exact neverOk_after_none (findSingleT_none.2 ht)
    | u256 b => exact bytes_neverOk (by rw [b.len]; decide) ht
    | i256 b => exact bytes_neverOk (by rw [b.len]; decide) ht
  | .mk (.bitSequence b) _ => fun t ht => by
    rw [Value.encodeT, ValueDef.encodeT]
    exact neverOk_after_none (findSingleT_none.2 ht)
theorem neverOk_children {res : Table Id} (cc : Bool) : (c : Composite Γ) → ∀ x ∈ c.encChildrenT res cc, ∀ u, Bottomless res u → NeverOk (x.enc u)
  | .named fs => neverOk_named cc fs
  | .unnamed vs => neverOk_unnamed cc vs
theorem neverOk_named {res : Table Id} (cc : Bool) : (fs : List (Str × Value Γ)) → ∀ x ∈ encNamedT res cc fs, ∀ u, Bottomless res u → NeverOk (x.enc u)
  | [] => fun _ h => by cases h
  | (k, v) :: r => fun x h u hu => by
    rw [encNamedT] at h
    rcases List.mem_cons.1 h with rfl | h
    · exact neverOk_value cc v u hu
    · exact neverOk_named cc r x h u hu
theorem neverOk_unnamed {res : Table Id} (cc : Bool) : (vs : List (Value Γ)) → ∀ x ∈ encUnnamedT res cc vs, ∀ u, Bottomless res u → NeverOk (x.enc u)
  | [] => fun _ h => by cases h
  | v :: r => fun x h u hu => by
    rw [encUnnamedT] at h
    rcases List.mem_cons.1 h with rfl | h
    · exact neverOk_value cc v u hu
    · exact neverOk_unnamed cc r x h u hu
end

end SV
