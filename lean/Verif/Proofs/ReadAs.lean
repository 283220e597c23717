import Verif.Spec.ReadAs
import Verif.Props.SerdeRead
/-
Proofs for C81: `from_value` reads what `ReadAs` says.
-/
namespace SV

variable {T : Type}

/-! ### Bits -/

theorem bitAs_iff (t : Ty) (b : Bool) (d : Dat) : t.de (boolDer b) = some d ↔ BitAs b t d := by
  constructor
  · intro h
    cases t with
    | bool => cases h; exact .bool
    | value => cases h; exact .value
    | num t => cases h
    | char => cases h
    | string => cases h
    | bytes => cases h
    | unit => cases h
    | unitStruct => cases h
    | option t => simp [Ty.de, boolDer, Der.visit, Der.ask] at h
    | newtype t => simp [Ty.de, boolDer, Der.visit, Der.ask] at h
    | seq t => simp [Ty.de, boolDer, Der.visit, Der.ask] at h
    | tuple t => simp [Ty.de, boolDer, Der.visit, Der.ask] at h
    | tupleStruct t => simp [Ty.de, boolDer, Der.visit, Der.ask] at h
    | struct t => simp [Ty.de, boolDer, Der.visit, Der.ask, structOf] at h
    | enum t => simp [Ty.de, boolDer, Der.visit, Der.ask] at h
    | map c t => simp [Ty.de, boolDer, Der.visit, Der.ask] at h
  · intro h; cases h <;> rfl

theorem bitsEach_iff {ts : List Ty} {bs : List Bool} {ds : List Dat} : Ty.deList ts true (bs.map boolDer) = some ds ↔ BitsEach ts bs ds := by
  induction ts generalizing bs ds with
  | nil =>
    cases bs with
    | nil => cases ds <;> simp [BitsEach, Ty.deList]
    | cons v vs => simp [BitsEach, Ty.deList]
  | cons t ts ih =>
    cases bs with
    | nil => simp [BitsEach, Ty.deList]
    | cons b bs =>
      rw [List.map_cons, Ty.deList]
      cases ds with
      | nil =>
        constructor
        · intro h
          split at h
          · cases h
          · split at h <;> cases h
        · rintro ⟨h1, h2, -⟩; simp at h2
      | cons d ds =>
        constructor
        · intro h
          split at h
          · cases h
          · next x hx =>
            split at h
            · cases h
            · next xs hxs =>
              cases h
              obtain ⟨h2, h3, h4⟩ := ih.1 hxs
              refine ⟨by simp [h2], by simp [h3], fun i => ?_⟩
              cases i with
              | zero => intro t v d a b c; cases a; cases b; cases c; exact (bitAs_iff _ _ _).1 hx
              | succ i => simpa using h4 i
        · rintro ⟨h1, h2, h3⟩
          have := (ih (bs := bs) (ds := ds)).2 ⟨by simpa using h1, by simpa using h2, fun i => by simpa using h3 (i + 1)⟩
          rw [(bitAs_iff _ _ _).2 (h3 0 t b d rfl rfl rfl), this]

theorem allOf_eq (t : Ty) (c : Bool) (l : List Der) : allOf t.de l = Ty.deList (List.replicate l.length t) c l := by
  induction l with
  | nil => simp [allOf, Ty.deList]
  | cons d l ih =>
    rw [allOf, List.length_cons, List.replicate_succ, Ty.deList, ih]
    cases t.de d with
    | none => rfl
    | some x => cases Ty.deList (List.replicate l.length t) c l <;> rfl

theorem deValues_bools (bs : List Bool) : deValues (bs.map boolDer) = some (bs.map (fun b => .mk (.primitive (.bool b)) ())) := by
  induction bs with
  | nil => rfl
  | cons b bs ih => rw [List.map_cons, deValues, ih]; rfl

theorem boolList_unit_iff {ws : List (Value Unit)} {bs : List Bool} : BoolList ws bs ↔ ws = bs.map (fun b => .mk (.primitive (.bool b)) ()) := by
  induction ws generalizing bs with
  | nil =>
    cases bs with
    | nil => simp [BoolList]
    | cons => simp [BoolList]
  | cons w ws ih =>
    cases bs with
    | nil => simp [BoolList]
    | cons b bs =>
      rw [List.map_cons, List.cons.injEq, ← ih]
      constructor
      · rintro ⟨h1, h2⟩
        obtain ⟨c, hc⟩ := h2 0 w b rfl rfl
        exact ⟨hc, by simpa using h1, fun i => h2 (i + 1)⟩
      · rintro ⟨rfl, h1, h2⟩
        refine ⟨by simp [h1], fun i => ?_⟩
        cases i with
        | zero => intro v b h1 h2; cases h1; cases h2; exact ⟨_, rfl⟩
        | succ i => exact h2 i

theorem bitsAs_iff (t : Ty) (bs : List Bool) (d : Dat) : t.de (boolsDer bs) = some d ↔ BitsAs bs t d := by
  cases t with
  | bool => exact ⟨fun h => (by cases h), fun h => (by cases h)⟩
  | num t => exact ⟨fun h => (by cases h), fun h => (by cases h)⟩
  | char => exact ⟨fun h => (by cases h), fun h => (by cases h)⟩
  | string => exact ⟨fun h => (by cases h), fun h => (by cases h)⟩
  | unit => exact ⟨fun h => (by cases h), fun h => (by cases h)⟩
  | unitStruct => exact ⟨fun h => (by cases h), fun h => (by cases h)⟩
  | option t => exact ⟨fun h => (by simp [Ty.de, boolsDer, Der.visit, Der.ask] at h), fun h => (by cases h)⟩
  | enum vs => exact ⟨fun h => (by simp [Ty.de, boolsDer, Der.visit, Der.ask] at h), fun h => (by cases h)⟩
  | map c t => exact ⟨fun h => (by simp [Ty.de, boolsDer, Der.visit, Der.ask] at h), fun h => (by cases h)⟩
  | bytes =>
    cases bs with
    | nil => exact ⟨fun h => (by cases h; exact .bytes rfl), fun h => (by cases h; rfl)⟩
    | cons b bs => exact ⟨fun h => (by cases h), fun h => (by cases h with | bytes h => cases h)⟩
  | value =>
    simp only [Ty.de, boolsDer, deValue, deDef, deValues_bools, Option.map_some, Option.some.injEq]
    constructor
    · rintro rfl; exact .value (boolList_unit_iff.2 rfl)
    · intro h; cases h with | value h => rw [boolList_unit_iff.1 h]
  | seq t =>
    simp only [Ty.de, boolsDer, Der.visit, Der.ask, Option.map_eq_some_iff]
    rw [allOf_eq t true, List.length_map]
    simp only [bitsEach_iff]
    constructor
    · rintro ⟨ds, h, rfl⟩; exact .seq h
    · intro h; cases h with | seq h => exact ⟨_, h, rfl⟩
  | tuple ts =>
    simp only [Ty.de, boolsDer, Der.visit, Der.ask, Option.map_eq_some_iff, bitsEach_iff]
    constructor
    · rintro ⟨ds, h, rfl⟩; exact .tuple h
    · intro h; cases h with | tuple h => exact ⟨_, h, rfl⟩
  | tupleStruct ts =>
    simp only [Ty.de, boolsDer, Der.visit, Der.ask, Option.map_eq_some_iff, bitsEach_iff]
    constructor
    · rintro ⟨ds, h, rfl⟩; exact .tupleStruct h
    · intro h; cases h with | tupleStruct h => exact ⟨_, h, rfl⟩
  | struct fs =>
    simp only [Ty.de, boolsDer, Der.visit, Der.ask, structOf, deFieldList_eq, Option.map_eq_some_iff, bitsEach_iff]
    constructor
    · rintro ⟨ds, h, rfl⟩; exact .struct h
    · intro h; cases h with | struct h => exact ⟨_, h, rfl⟩
  | newtype t =>
    have : (Ty.newtype t).de (boolsDer bs) = (Ty.deList [t] true (bs.map boolDer)).map .list := by
      cases bs with
      | nil => simp [Ty.de, boolsDer, Der.visit, Der.ask, Ty.deList]
      | cons b bs =>
        simp only [Ty.de, boolsDer, Der.visit, Der.ask, Ty.deList, List.map_cons]
        cases bs with
        | nil => cases t.de (boolDer b) <;> simp
        | cons b' bs => cases t.de (boolDer b) <;> simp
    rw [this, Option.map_eq_some_iff]
    simp only [bitsEach_iff]
    constructor
    · rintro ⟨ds, h, rfl⟩; exact .newtype h
    · intro h; cases h with | newtype h => exact ⟨_, h, rfl⟩

/-! ### Structs from bits -/

theorem deFields_bits (bs : List Bool) (fs : List (Str × Ty)) (ds : List Dat) : Ty.deFields fs [(bitIdent, boolsDer bs)] = some ds ↔ ds.length = fs.length ∧
    (∀ (i : Nat) f d, fs[i]? = some f → ds[i]? = some d → f.1 = "__bitvec__values__".toList → BitsAs bs f.2 d) ∧
    (∀ (i : Nat) f d, fs[i]? = some f → ds[i]? = some d → f.1 ≠ "__bitvec__values__".toList → (∃ u, f.2 = .option u) ∧ d = .none) := by
  change _ ↔ ds.length = fs.length ∧
    (∀ (i : Nat) f d, fs[i]? = some f → ds[i]? = some d → f.1 = bitIdent → BitsAs bs f.2 d) ∧
    (∀ (i : Nat) f d, fs[i]? = some f → ds[i]? = some d → f.1 ≠ bitIdent → (∃ u, f.2 = .option u) ∧ d = .none)
  induction fs generalizing ds with
  | nil => cases ds <;> simp [Ty.deFields]
  | cons f fs ih =>
    obtain ⟨n, t⟩ := f
    have head : ∃ o : Option Dat, Ty.deFields ((n, t) :: fs) [(bitIdent, boolsDer bs)] = o.bind (fun x => (Ty.deFields fs [(bitIdent, boolsDer bs)]).map (fun xs => x :: xs)) ∧
        ∀ x, o = some x ↔ (n = bitIdent → BitsAs bs t x) ∧ (n ≠ bitIdent → (∃ u, t = .option u) ∧ x = .none) := by
      rw [Ty.deFields]
      by_cases hn : n = bitIdent
      · subst hn
        refine ⟨t.de (boolsDer bs), ?_, ?_⟩
        · have hp : pickField bitIdent [(bitIdent, boolsDer bs)] = some (some (boolsDer bs)) := by simp [pickField]
          rw [hp]
          simp only
          cases t.de (boolsDer bs) <;> cases Ty.deFields fs [(bitIdent, boolsDer bs)] <;> rfl
        · intro x
          rw [bitsAs_iff]
          exact ⟨fun h => ⟨fun _ => h, fun h => absurd rfl h⟩, fun h => h.1 rfl⟩
      · refine ⟨t.missing, ?_, ?_⟩
        · have hp : pickField n [(bitIdent, boolsDer bs)] = some none := by simp [pickField, List.filter, show decide (bitIdent = n) = false by simpa using fun h => hn h.symm]
          rw [hp]
          simp only
          cases t.missing <;> cases Ty.deFields fs [(bitIdent, boolsDer bs)] <;> rfl
        · intro x
          have : t.missing = some x ↔ (∃ u, t = .option u) ∧ x = .none := by cases t <;> simp [Ty.missing, eq_comm]
          rw [this]
          exact ⟨fun h => ⟨fun h' => absurd h' hn, fun _ => h⟩, fun h => h.2 hn⟩
    obtain ⟨o, ho, hx⟩ := head
    rw [ho]
    constructor
    · intro h
      obtain ⟨x, hox, h⟩ := Option.bind_eq_some_iff.1 h
      obtain ⟨xs, hxs, rfl⟩ := Option.map_eq_some_iff.1 h
      obtain ⟨h1, h2, h3⟩ := (ih xs).1 hxs
      refine ⟨by simp [h1], fun i => ?_, fun i => ?_⟩
      · cases i with
        | zero => intro f y a b; cases a; cases b; exact ((hx x).1 hox).1
        | succ i => exact h2 i
      · cases i with
        | zero => intro f y a b; cases a; cases b; exact ((hx x).1 hox).2
        | succ i => exact h3 i
    · rintro ⟨h1, h2, h3⟩
      cases ds with
      | nil => simp at h1
      | cons x xs =>
        rw [(hx x).2 ⟨h2 0 _ x rfl rfl, h3 0 _ x rfl rfl⟩]
        simp only [Option.bind_some]
        rw [(ih xs).2 ⟨by simpa using h1, fun i => h2 (i + 1), fun i => h3 (i + 1)⟩]
        rfl

theorem struct_bits (fs : List (Str × Ty)) (b : List Bool) (c : T) :
    (Ty.struct fs).de (Value.mk (.bitSequence b) c).der = (Ty.deFields fs [(bitIdent, boolsDer b)]).map .list := by
  simp only [Ty.de, Der.visit, Value.der, Der.ask, ValueDef.ask, bitsReply, structOf, identKeys, deIdent_strDer]
  rw [if_pos]
  simp [deIgnored_bools]

/-! ### Maps -/

theorem insertMap_keys {es : List (Str × Dat)} {k : Str} {d : Dat} : (insertMap es k d).map (fun p => p.1) =
    if k ∈ es.map (fun p => p.1) then es.map (fun p => p.1) else es.map (fun p => p.1) ++ [k] := by
  unfold insertMap
  split
  · rw [List.map_map]
    apply List.map_congr_left
    intro p _
    simp only [Function.comp]
    split
    · next h => exact h.symm
    · rfl
  · simp

/-- Putting the entries into a map one after the other. -/
def putAll : List (Str × Dat) → List (Str × Dat) → List (Str × Dat)
  | [], acc => acc
  | (k, d) :: es, acc => putAll es (insertMap acc k d)

theorem putAll_append (es fs acc : List (Str × Dat)) : putAll (es ++ fs) acc = putAll fs (putAll es acc) := by
  induction es generalizing acc with
  | nil => rfl
  | cons e es ih => exact ih _

theorem mapOf_putAll (es : List (Str × Dat)) : MapOf es (putAll es []) := by
  have snoc : ∀ n (es : List (Str × Dat)), es.length = n → MapOf es (putAll es []) := by
    intro n
    induction n with
    | zero => intro es h; rw [List.length_eq_zero_iff.1 h]; exact ⟨rfl, by simp [putAll]⟩
    | succ n ih =>
      intro es h
      rcases List.eq_nil_or_concat es with rfl | ⟨es, e, rfl⟩
      · simp at h
      obtain ⟨k, d⟩ := e
      obtain ⟨h1, h2⟩ := ih es (by simpa using h)
      rw [List.concat_eq_append, putAll_append]
      simp only [putAll]
      constructor
      · rw [insertMap_keys, List.map_append, List.eraseDups_append, h1]
        simp only [List.mem_eraseDups, List.map_cons, List.map_nil]
        split
        · next hk => simp [List.removeAll, hk]
        · next hk => simp [List.removeAll, hk, List.eraseDups_cons]
      · intro k' x hm
        rw [insertMap_mem] at hm
        split at hm
        · next hk => subst hk hm; exact ⟨es, [], rfl, by simp⟩
        · next hk =>
          obtain ⟨pre, post, rfl, hp⟩ := h2 k' x hm
          refine ⟨pre, post ++ [(k, d)], by simp, ?_⟩
          simp only [List.map_append, List.mem_append, hp, false_or]
          simpa using hk
  exact snoc _ es rfl

theorem mapOf_unique {es m m' : List (Str × Dat)} (h : MapOf es m) (h' : MapOf es m') : m = m' := by
  have key : ∀ (ks : List Str) (m m' : List (Str × Dat)), m.map (fun p => p.1) = ks → m'.map (fun p => p.1) = ks →
      (∀ k x y, (k, x) ∈ m → (k, y) ∈ m' → x = y) → m = m' := by
    intro ks
    induction ks with
    | nil => intro m m' h1 h2 _; rw [List.map_eq_nil_iff.1 h1, List.map_eq_nil_iff.1 h2]
    | cons k ks ih =>
      intro m m' h1 h2 h3
      obtain ⟨⟨a, x⟩, m, rfl, rfl, h1'⟩ := List.map_eq_cons_iff.1 h1
      obtain ⟨⟨b, y⟩, m', rfl, hb, h2'⟩ := List.map_eq_cons_iff.1 h2
      simp only at hb; subst hb
      rw [h3 b x y (by simp) (by simp), ih m m' h1' h2' (fun k x y hx hy => h3 k x y (by simp [hx]) (by simp [hy]))]
  refine key _ m m' h.1 h'.1 ?_
  intro k x y hx hy
  obtain ⟨pre, post, h1, h2⟩ := h.2 k x hx
  obtain ⟨pre', post', h3, h4⟩ := h'.2 k y hy
  rw [h1] at h3
  rcases List.append_eq_append_iff.1 h3 with ⟨a, ha, hb⟩ | ⟨a, ha, hb⟩
  · cases a with
    | nil => simp only [List.nil_append, List.cons.injEq, Prod.mk.injEq] at hb; exact hb.1.2
    | cons q a => simp only [List.cons_append, List.cons.injEq] at hb; rw [hb.2] at h2; simp at h2
  · cases a with
    | nil => simp only [List.nil_append, List.cons.injEq, Prod.mk.injEq] at hb; exact hb.1.2.symm
    | cons q a => simp only [List.cons_append, List.cons.injEq] at hb; rw [hb.2] at h4; simp at h4

theorem deMap_iff {chars : Bool} {f : Der → Option Dat} {l : List (Str × Value T)} {acc m : List (Str × Dat)} :
    deMap (mapKey chars) f (fieldDers l) acc = some m ↔ (chars = true → ∀ p ∈ l, p.1.length = 1) ∧ ∃ es : List (Str × Dat),
      es.map (fun p => p.1) = l.map (fun p => p.1) ∧ (∀ (i : Nat) (p : Str × Value T) (e : Str × Dat), l[i]? = some p → es[i]? = some e → f p.2.der = some e.2) ∧
      putAll es acc = m := by
  induction l generalizing acc with
  | nil =>
    simp only [fieldDers, deMap, Option.some.injEq]
    constructor
    · rintro rfl; exact ⟨by simp, [], rfl, by simp, rfl⟩
    · rintro ⟨-, es, h1, -, rfl⟩
      rw [List.map_eq_nil_iff.1 h1]; rfl
  | cons p l ih =>
    obtain ⟨n, v⟩ := p
    rw [fieldDers, deMap]
    constructor
    · intro h
      split at h
      · cases h
      · next s hs =>
        obtain ⟨rfl, hc⟩ := (mapKey_iff _ _ _).1 hs
        split at h
        · cases h
        · next d hd =>
          obtain ⟨h1, es, h2, h3, h4⟩ := ih.1 h
          refine ⟨?_, (s, d) :: es, by simp [h2], ?_, h4⟩
          · intro hh p hp
            rcases List.mem_cons.1 hp with rfl | hp
            · exact hc hh
            · exact h1 hh p hp
          · intro i
            cases i with
            | zero => intro p e a b; cases a; cases b; exact hd
            | succ i => exact h3 i
    · rintro ⟨h1, es, h2, h3, h4⟩
      cases es with
      | nil => simp at h2
      | cons e es =>
        obtain ⟨k, d⟩ := e
        simp only [List.map_cons, List.cons.injEq] at h2
        obtain ⟨rfl, h2⟩ := h2
        rw [(mapKey_iff chars k k).2 ⟨rfl, fun h => h1 h (k, v) List.mem_cons_self⟩]
        simp only
        have hd := h3 0 _ _ rfl rfl
        simp only at hd
        rw [hd]
        exact ih.2 ⟨fun h p hp => h1 h p (by simp [hp]), es, h2, fun i => h3 (i + 1), h4⟩

theorem de_map_iff (chars : Bool) (t : Ty) (v : Value T) (d : Dat) : (Ty.map chars t).de v.der = some d ↔
    ∃ l es m, v.fields? = some (.named l) ∧ (chars = true → ∀ p ∈ l, p.1.length = 1) ∧ es.map (fun p => p.1) = l.map (fun p => p.1) ∧
      (∀ (i : Nat) (p : Str × Value T) (e : Str × Dat), l[i]? = some p → es[i]? = some e → t.de p.2.der = some e.2) ∧ MapOf es m ∧ d = .map m := by
  rw [de_map]
  constructor
  · rintro ⟨l, m, h1, h2, rfl⟩
    obtain ⟨h3, es, h4, h5, rfl⟩ := deMap_iff.1 h2
    exact ⟨l, es, _, h1, h3, h4, h5, mapOf_putAll es, rfl⟩
  · rintro ⟨l, es, m, h1, h3, h4, h5, h6, rfl⟩
    exact ⟨l, m, h1, deMap_iff.2 ⟨h3, es, h4, h5, mapOf_unique (mapOf_putAll es) h6⟩, rfl⟩

/-! ### Fields by name -/

theorem fieldIs_iff {ps : List (Str × Value T)} {n : Str} {t : Ty} {d : Dat} : FieldIs ps n t d ↔
    (ps.filter (fun p => decide (p.1 = n))).length ≤ 1 ∧ (∀ w, (n, w) ∈ ps → t.de w.der = some d) ∧ (n ∉ ps.map (fun p => p.1) → (∃ u, t = .option u) ∧ d = .none) := by
  constructor
  · intro h
    cases h with
    | @present _ _ v pre post split once h =>
      subst split
      simp only [List.map_append, List.mem_append, not_or] at once
      have e1 : pre.filter (fun p => decide (p.1 = n)) = [] := by
        rw [List.filter_eq_nil_iff]; intro p hp hd; exact once.1 (List.mem_map.2 ⟨p, hp, by simpa using hd⟩)
      have e2 : post.filter (fun p => decide (p.1 = n)) = [] := by
        rw [List.filter_eq_nil_iff]; intro p hp hd; exact once.2 (List.mem_map.2 ⟨p, hp, by simpa using hd⟩)
      refine ⟨by simp [e1, e2], ?_, by simp⟩
      intro w hw
      rcases List.mem_append.1 hw with hw | hw
      · exact (once.1 (List.mem_map.2 ⟨_, hw, rfl⟩)).elim
      · rcases List.mem_cons.1 hw with hw | hw
        · cases hw; exact h
        · exact (once.2 (List.mem_map.2 ⟨_, hw, rfl⟩)).elim
    | @absent u none =>
      have e : ps.filter (fun p => decide (p.1 = n)) = [] := by
        rw [List.filter_eq_nil_iff]; intro p hp hd; exact none (List.mem_map.2 ⟨p, hp, by simpa using hd⟩)
      exact ⟨by simp [e], fun w hw => (none (List.mem_map.2 ⟨_, hw, rfl⟩)).elim, fun _ => ⟨⟨_, rfl⟩, rfl⟩⟩
  · rintro ⟨h1, h2, h3⟩
    by_cases hm : n ∈ ps.map (fun p => p.1)
    · obtain ⟨⟨m, w⟩, hp, hn⟩ := List.mem_map.1 hm
      simp only at hn; subst hn
      obtain ⟨pre, post, rfl⟩ := List.append_of_mem hp
      refine .present rfl ?_ (h2 w (by simp))
      simp only [List.filter_append, List.length_append, List.filter_cons, decide_true, if_true, List.length_cons] at h1
      simp only [List.map_append, List.mem_append, not_or]
      constructor
      · intro hx
        obtain ⟨q, hq, hqn⟩ := List.mem_map.1 hx
        have := List.length_pos_of_mem (List.mem_filter.2 ⟨hq, by simpa using hqn⟩ : q ∈ pre.filter (fun p => decide (p.1 = m)))
        omega
      · intro hx
        obtain ⟨q, hq, hqn⟩ := List.mem_map.1 hx
        have := List.length_pos_of_mem (List.mem_filter.2 ⟨hq, by simpa using hqn⟩ : q ∈ post.filter (fun p => decide (p.1 = m)))
        omega
    · obtain ⟨⟨u, rfl⟩, rfl⟩ := h3 hm
      exact .absent hm

/-! ### Enums -/

theorem de_enum_iff (vs : List (Str × VTy)) (v : Value T) (d : Dat) (c : T) : (Ty.enum vs).de v.der = some d ↔
    ∃ n f ds vt pre post, v.value = .variant (.mk n f) ∧ vs = pre ++ (n, vt) :: post ∧ n ∉ pre.map (fun p => p.1) ∧ ReadsVariant vt (.mk (.composite f) c) ds ∧ d = .enum n ds := by
  cases v with | mk e x =>
  cases e with
  | composite f => cases f <;> simp [Ty.de, Value.der, Der.visit, Der.ask, ValueDef.ask, Composite.ask, Value.value]
  | bitSequence b => simp [Ty.de, Value.der, Der.visit, Der.ask, ValueDef.ask, Value.value]
  | primitive p => cases p <;> simp [Ty.de, Value.der, Der.visit, Der.ask, ValueDef.ask, Primitive.ask, Primitive.any, Value.value]
  | variant w =>
    cases w with | mk n f =>
    rw [de_enum, Option.map_eq_some_iff]
    simp only [Value.value, ValueDef.variant.injEq, Variant.mk.injEq, deVariant_iff]
    constructor
    · rintro ⟨ds, ⟨pre, vt, post, rfl, h2, h3⟩, rfl⟩
      refine ⟨n, f, ds, vt, pre, post, ⟨rfl, rfl⟩, rfl, ?_, (vty_iff vt f c ds).1 h3, rfl⟩
      intro hm
      obtain ⟨p, hp, hpn⟩ := List.mem_map.1 hm
      exact h2 p hp hpn
    · rintro ⟨n', f', ds, vt, pre, post, ⟨rfl, rfl⟩, rfl, h2, h3, rfl⟩
      exact ⟨ds, ⟨pre, vt, post, rfl, fun p hp hpn => h2 (List.mem_map.2 ⟨p, hp, hpn⟩), (vty_iff vt _ c ds).2 h3⟩, rfl⟩

end SV
