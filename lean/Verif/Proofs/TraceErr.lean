import Verif.Proofs.Trace
import Verif.Proofs.NodeFault
import Mathlib.Tactic.ByContra
/-
Errors of the tracing decoder, and how the two decoders are related.
-/
namespace SV

variable {Id Γ : Type}

/-- The parts of a value of which a node is made of, when its own bytes (length, variant index) have been read: the fields of a struct or
variant, or the items of a sequence, array or tuple (which have no names), the rest of the input, and how the node is made from a
composite of the parts. -/
def DStep.parts (ty : Id) : DStep Id → Option (List (Field Id) × List UInt8 × (Composite Id → Value Id))
  | .leaf _ _ => none
  | .items ts r => some (ts.map (fun t => ⟨none, t⟩), r, fun c => .mk (.composite c) ty)
  | .composite fs r => some (fs, r, fun c => .mk (.composite c) ty)
  | .variant n fs r => some (fs, r, fun c => .mk (.variant (.mk n c)) ty)


/-- `FailsVisit reg c t bs path soFar e`: (the specification `FailsAt`, in terms of the steps of the decoder) the bytes `bs` cannot be decoded at type `t` (with `c`: `Compact<t>`), because of the error `e`, which is met
at the place `path` in the value. `soFar` is what has been decoded of the value: nothing if the failure is at its root. -/
inductive FailsVisit (reg : Reg Id) : Bool → Id → List UInt8 → Path → Option (Value Id) → DErr → Prop
  /-- The node itself cannot be read. -/
  | here {c t bs e} : visit reg c t bs = .error e → FailsVisit reg c t bs [] none e
  /-- The node claims to have more items than the decoder is willing to decode. -/
  | tooMany {c t bs ty c' s fs r mk} : visit reg c t bs = .ok ⟨ty, c', s⟩ → s.parts ty = some (fs, r, mk) → (∀ n fs' r', s ≠ .variant n fs' r') →
      ¬ AllNamed fs → 100000000 < fs.length → FailsVisit reg c t bs [] none .tooManyEntries
  /-- The same for the fields of a variant: the path then has the name of the variant. -/
  | tooManyVariant {c t bs ty c' name fs r} : visit reg c t bs = .ok ⟨ty, c', .variant name fs r⟩ → ¬ AllNamed fs → 100000000 < fs.length →
      FailsVisit reg c t bs [.variant name] (some (.mk (.variant (.mk name (.unnamed []))) ty)) .tooManyEntries
  /-- The parts before the `k`th have been decoded, and the `k`th fails. What has been decoded of the `k`th part is the last part of what
  has been decoded. -/
  | part {c t bs ty c' s fs r mk k f p r' vs seg path soFar e cs} : visit reg c t bs = .ok ⟨ty, c', s⟩ → s.parts ty = some (fs, r, mk) →
      fs[k]? = some f → r = p ++ r' → ScaleAll reg False .i256 id c' ((fs.take k).map (fun f => f.id)) vs p →
      (∀ v ∈ vs, SmallGroups v) → ¬ (¬ AllNamed fs ∧ 100000000 < fs.length) → FailsVisit reg c' f.id r' path soFar e → SegOf fs k seg → Partial fs (vs ++ soFar.toList) cs →
      FailsVisit reg c t bs (seg :: path) (some (mk cs)) e

theorem smallGroups_child {T : Type} {v u : Value T} (h : SmallGroups v) (hu : u ∈ v.children) : SmallGroups u :=
  fun w vs hw => h w vs (.child hu hw)

theorem smallGroups_node {T : Type} {v : Value T} (h1 : ∀ vs, v.fields? = some (.unnamed vs) → vs.length ≤ 100000000) (h2 : ∀ u ∈ v.children, SmallGroups u) : SmallGroups v := by
  intro w vs hw hc
  cases hw with
  | self => exact h1 vs hc
  | child hu hw => exact h2 _ hu w vs hw hc

theorem trParts_small {dec : TDec Id} {path : Path} {all : List (Field Id)}
    (hd : ∀ p t bs v r, dec p t bs = some (.ok (v, r)) → SmallGroups v) :
    ∀ fs k vs bs cs r, trParts dec path all fs k vs bs = some (.ok (cs, r)) → (∀ v ∈ vs, SmallGroups v) →
      ∃ ws, ws.length = vs.length + fs.length ∧ (∀ v ∈ ws, SmallGroups v) ∧ cs = partialOf all ws := by
  intro fs
  induction fs with
  | nil => intro k vs bs cs r h hv; simp only [trParts] at h; cases h; exact ⟨vs, rfl, hv, rfl⟩
  | cons f fs ih =>
    intro k vs bs cs r h hv
    simp only [trParts] at h
    split at h
    · cases h
    · cases h
    · cases h
    · rename_i v r1 h1
      obtain ⟨ws, h2, h3⟩ := ih _ _ _ _ _ h (by
        intro w hw
        rcases List.mem_append.1 hw with hw | hw
        · exact hv w hw
        · rw [List.mem_singleton.1 hw]; exact hd _ _ _ _ _ h1)
      exact ⟨ws, by simp at h2; simp; omega, h3⟩

theorem trGroup_small {al : Nat → Bool} {dec : TDec Id} {path : Path} {fs : List (Field Id)}
    (hd : ∀ p t bs v r, dec p t bs = some (.ok (v, r)) → SmallGroups v) {bs cs r} (h : trGroup al dec path fs bs = some (.ok (cs, r))) :
    (∀ vs, cs = .unnamed vs → vs.length ≤ 100000000) ∧ ∀ v ∈ cs.vals, SmallGroups v := by
  unfold trGroup at h
  split at h
  · cases h
  · rename_i hn
    split at h
    · cases h
    · obtain ⟨ws, h1, h2, rfl⟩ := trParts_small hd _ _ _ _ _ _ h (by simp)
      simp only [List.length_nil, Nat.zero_add] at h1
      refine ⟨?_, ?_⟩
      · intro vs hvs
        unfold partialOf at hvs
        split at hvs
        · cases hvs
        · rename_i hn'
          cases hvs
          unfold maxCapacity at hn
          rw [Bool.not_eq_true] at hn'
          rw [h1]
          by_contra hc
          exact hn ⟨hn', by omega⟩
      · rw [hasShape_vals (partialOf_shape.2 rfl) h1]; exact h2

theorem trN_small (reg : Reg Id) (al : Nat → Bool) (n : Nat) : ∀ c path t bs v r,
    trN reg al n c path t bs = some (.ok (v, r)) → SmallGroups v := by
  induction n with
  | zero => intro c path t bs v r h; cases h
  | succ n ih =>
    intro c path t bs v r h
    rw [trN] at h
    split at h
    · cases h
    · rename_i ty c' l r' hv
      cases h
      refine smallGroups_node ?_ ?_
      · intro vs hc; cases l <;> cases hc
      · intro u hu; cases l <;> cases hu
    · obtain ⟨cs, rfl, h1⟩ := trMkVal_ok h
      rw [trUnnamed_eq] at h1
      have := trGroup_small (ih _) h1
      refine smallGroups_node ?_ ?_
      · intro vs hc; exact this.1 vs (by cases hc; rfl)
      · intro u hu; exact this.2 u (by cases cs <;> exact hu)
    · obtain ⟨cs, rfl, h1⟩ := trMkVal_ok h
      rw [trGroupOf_eq] at h1
      have := trGroup_small (ih _) h1
      refine smallGroups_node ?_ ?_
      · intro vs hc; exact this.1 vs (by cases hc; rfl)
      · intro u hu; exact this.2 u (by cases cs <;> exact hu)
    · obtain ⟨cs, rfl, h1⟩ := trMkVariant_ok h
      rw [trGroupOf_eq] at h1
      have := trGroup_small (ih _) h1
      refine smallGroups_node ?_ ?_
      · intro vs hc; exact this.1 vs (by cases hc; rfl)
      · intro u hu; exact this.2 u (by cases cs <;> exact hu)

/-- An error with its path relative to where decoding was at. -/
def TErrAt {V : Type} (F : Path → Option V → DErr → Prop) (path : Path) : TErr V → Prop
  | .fromDecode d => F [] none d
  | .fromVisitor p v d => ∃ rel, p = path ++ rel ∧ F rel (some v) d

/-- What is known about an error in a group of parts. -/
def GroupErr (reg : Reg Id) (c : Bool) (all : List (Field Id)) (r : List UInt8) (path : Path) (e : TErr (Composite Id)) : Prop :=
  ∃ k f p r' vs seg rel soFar d cs, e = .fromVisitor (path ++ seg :: rel) cs d ∧ all[k]? = some f ∧ r = p ++ r' ∧
    ScaleAll reg False .i256 id c ((all.take k).map (fun f => f.id)) vs p ∧ (∀ v ∈ vs, SmallGroups v) ∧ FailsVisit reg c f.id r' rel soFar d ∧ SegOf all k seg ∧
    Partial all (vs ++ soFar.toList) cs

theorem trParts_err {reg : Reg Id} {c : Bool} {dec : TDec Id} {path : Path} {all : List (Field Id)}
    (hd : ∀ p t bs v r, dec p t bs = some (.ok (v, r)) → ∃ q, bs = q ++ r ∧ Scale reg False .i256 id c t v q)
    (hsm : ∀ p t bs v r, dec p t bs = some (.ok (v, r)) → SmallGroups v)
    (he : ∀ p t bs e, dec p t bs = some (.err e) → TErrAt (FailsVisit reg c t bs) p e) (r0 : List UInt8) :
    ∀ fs k vs bs e, all.drop k = fs → (∃ p, r0 = p ++ bs ∧ ScaleAll reg False .i256 id c ((all.take k).map (fun f => f.id)) vs p) → (∀ v ∈ vs, SmallGroups v) →
      trParts dec path all fs k vs bs = some (.err e) → GroupErr reg c all r0 path e := by
  intro fs
  induction fs with
  | nil => intro k vs bs e _ _ _ h; simp only [trParts] at h; cases h
  | cons f fs ih =>
    intro k vs bs e hk hp hsv h
    have hf : all[k]? = some f := by
      have := congrArg List.head? hk
      simpa [List.head?_drop] using this
    obtain ⟨p, hr, hs⟩ := hp
    simp only [trParts] at h
    split at h
    · cases h
    · cases h
    · rename_i e1 h1
      have h2 := he _ _ _ _ h1
      cases h
      cases e1 with
      | fromDecode d =>
        exact ⟨k, f, p, bs, vs, segAt all k, [], none, d, _, rfl, hf, hr, hs, hsv, h2, segOf_segAt hf, by simpa using partial_partialOf all vs⟩
      | fromVisitor q v d =>
        obtain ⟨rel, rfl, h2⟩ := h2
        refine ⟨k, f, p, bs, vs, segAt all k, rel, some v, d, _, ?_, hf, hr, hs, hsv, h2, segOf_segAt hf, partial_partialOf all (vs ++ [v])⟩
        simp [TErr.withOuter]
    · rename_i v r1 h1
      obtain ⟨q, hq, hv⟩ := hd _ _ _ _ _ h1
      refine ih (k + 1) (vs ++ [v]) r1 e ?_ ⟨p ++ q, by rw [hr, hq, List.append_assoc], ?_⟩ ?_ h
      · rw [← List.drop_drop, hk]; rfl
      · have : all.take (k + 1) = all.take k ++ [f] := by rw [List.take_add_one, hf]; rfl
        rw [this, List.map_append]
        have h3 := scaleAll_append hs (ScaleAll.cons hv .nil)
        simpa using h3
      · intro w hw
        rcases List.mem_append.1 hw with hw | hw
        · exact hsv w hw
        · rw [List.mem_singleton.1 hw]; exact hsm _ _ _ _ _ h1

theorem trGroup_err {reg : Reg Id} {c : Bool} {al : Nat → Bool} {dec : TDec Id} {path : Path} {fs : List (Field Id)} {bs : List UInt8} {e}
    (hd : ∀ p t bs v r, dec p t bs = some (.ok (v, r)) → ∃ q, bs = q ++ r ∧ Scale reg False .i256 id c t v q)
    (hsm : ∀ p t bs v r, dec p t bs = some (.ok (v, r)) → SmallGroups v)
    (he : ∀ p t bs e, dec p t bs = some (.err e) → TErrAt (FailsVisit reg c t bs) p e)
    (h : trGroup al dec path fs bs = some (.err e)) :
    (e = .fromDecode .tooManyEntries ∧ ¬ AllNamed fs ∧ 100000000 < fs.length) ∨ (¬ (¬ AllNamed fs ∧ 100000000 < fs.length) ∧ GroupErr reg c fs bs path e) := by
  unfold trGroup at h
  split at h
  · rename_i h1
    cases h
    refine .inl ⟨rfl, ?_, h1.2⟩
    rw [← allNamed_iff, h1.1]; simp
  · rename_i h1
    split at h
    · cases h
    · refine .inr ⟨?_, trParts_err hd hsm he bs fs 0 [] bs e rfl ⟨[], rfl, by simpa using ScaleAll.nil⟩ (by simp) h⟩
      rintro ⟨h2, h3⟩
      exact h1 ⟨by rw [← Bool.not_eq_true, allNamed_iff]; exact h2, h3⟩

theorem groupErr_failsVisit {reg : Reg Id} {c c' : Bool} {t ty : Id} {bs r : List UInt8} {s : DStep Id} {fs : List (Field Id)} {mk : Composite Id → Value Id}
    {path : Path} {e : TErr (Composite Id)} (hv : visit reg c t bs = .ok ⟨ty, c', s⟩) (hp : s.parts ty = some (fs, r, mk))
    (hl : ¬ (¬ AllNamed fs ∧ 100000000 < fs.length)) (h : GroupErr reg c' fs r path e) : TErrAt (FailsVisit reg c t bs) path (e.mapSoFar mk) := by
  obtain ⟨k, f, p, r', vs, seg, rel, soFar, d, cs, rfl, h1, h2, h3, h3', h4, h5, h6⟩ := h
  exact ⟨seg :: rel, rfl, .part hv hp h1 h2 h3 h3' hl h4 h5 h6⟩

theorem trMkVal_err {ty : Id} {a : Option (Out (TErr (Composite Id)) (Composite Id × List UInt8))} {e}
    (h : trMkVal ty a = some (.err e)) : ∃ e', a = some (.err e') ∧ e = e'.mapSoFar (fun c => .mk (.composite c) ty) := by
  unfold trMkVal at h
  split at h
  · cases h
  · cases h
  · cases h; exact ⟨_, rfl, rfl⟩
  · cases h

theorem trN_err (reg : Reg Id) (al : Nat → Bool) (n : Nat) : ∀ c path t bs e,
    trN reg al n c path t bs = some (.err e) → TErrAt (FailsVisit reg c t bs) path e := by
  induction n with
  | zero => intro c path t bs e h; cases h
  | succ n ih =>
    intro c path t bs e h
    rw [trN] at h
    split at h
    · rename_i e' hv; cases h; exact .here hv
    · cases h
    · rename_i ty c' ids r' hv
      obtain ⟨e', h1, rfl⟩ := trMkVal_err h
      rw [trUnnamed_eq] at h1
      rcases trGroup_err (trN_sound reg al n c') (trN_small reg al n c') (ih c') h1 with ⟨rfl, h2, h3⟩ | ⟨hl, h2⟩
      · exact .tooMany hv rfl (by simp) h2 h3
      · exact groupErr_failsVisit hv rfl hl h2
    · rename_i ty c' fs r' hv
      obtain ⟨e', h1, rfl⟩ := trMkVal_err h
      rw [trGroupOf_eq] at h1
      rcases trGroup_err (trN_sound reg al n c') (trN_small reg al n c') (ih c') h1 with ⟨rfl, h2, h3⟩ | ⟨hl, h2⟩
      · exact .tooMany hv rfl (by simp) h2 h3
      · exact groupErr_failsVisit hv rfl hl h2
    · rename_i ty c' name fs r' hv
      rw [trGroupOf_eq] at h
      unfold trMkVariant at h
      split at h
      · cases h
      · cases h
      · rename_i e' h1
        cases h
        rcases trGroup_err (trN_sound reg al n c') (trN_small reg al n c') (ih c') h1 with ⟨rfl, h2, h3⟩ | ⟨hl, h2⟩
        · exact ⟨[.variant name], rfl, .tooManyVariant hv h2 h3⟩
        · have h3 := groupErr_failsVisit hv rfl hl h2
          obtain ⟨k, f, p, r', vs, seg, rel, soFar, d, cs, rfl, -⟩ := h2
          exact h3
      · cases h

/-! ### Changing contexts and the reading of signed 256 bit numbers -/

@[simp] theorem mapPrimVals_length (g : Primitive → Primitive) (vs : List (Value Γ)) : (mapPrimVals g vs).length = vs.length := by
  induction vs with
  | nil => simp [mapPrimVals]
  | cons v vs ih => simp [mapPrimVals, ih]

theorem mapPrimFields_zip (g : Primitive → Primitive) (ns : List Str) (vs : List (Value Γ)) :
    mapPrimFields g (ns.zip vs) = ns.zip (mapPrimVals g vs) := by
  induction vs generalizing ns with
  | nil => simp [mapPrimFields, mapPrimVals]
  | cons v vs ih => cases ns with
    | nil => simp [mapPrimFields]
    | cons n ns => simp [mapPrimFields, mapPrimVals, ih]

theorem hasShape_mapPrim {fs : List (Field Id)} {vs : List (Value Γ)} {cs : Composite Γ} (g : Primitive → Primitive) (h : HasShape fs vs cs) :
    HasShape fs (mapPrimVals g vs) (cs.mapPrim g) := by
  cases h with
  | named h1 h2 => rw [Composite.mapPrim, mapPrimFields_zip]; exact .named h1 h2
  | unnamed h1 => exact .unnamed h1

theorem mapFieldsS_zip {S T U : Type} (f : S → T → U × S) (s : S) (ns : List Str) (vs : List (Value T)) :
    mapFieldsS f (ns.zip vs) s = ns.zip (mapValsS f vs s) := by
  induction vs generalizing ns with
  | nil => cases ns <;> rfl
  | cons v vs ih => cases ns with
    | nil => rfl
    | cons n ns => rw [List.zip_cons_cons, mapFieldsS, ih, mapValsS, List.zip_cons_cons]

theorem mapValsS_length {S T U : Type} (f : S → T → U × S) (s : S) (vs : List (Value T)) : (mapValsS f vs s).length = vs.length := by
  induction vs with
  | nil => rfl
  | cons v vs ih => rw [mapValsS, List.length_cons, ih, List.length_cons]

theorem hasShape_mapContext {T U : Type} {fs : List (Field Id)} {vs : List (Value T)} {cs : Composite T} (f : Unit → T → U × Unit) (h : HasShape fs vs cs) :
    HasShape fs (mapValsS f vs ()) (cs.mapContextS f ()) := by
  cases h with
  | named h1 h2 => rw [Composite.mapContextS, mapFieldsS_zip]; exact .named h1 h2
  | unnamed h1 => rw [Composite.mapContextS]; exact .unnamed h1

/-- The same bytes with all primitives of the value replaced. -/
theorem scale_mapPrim {reg : Reg Id} {canon : Prop} {f : Bytes32 → Primitive} {ctx : Id → Γ} (g : Primitive → Primitive)
    (hb : ∀ b, g (.bool b) = .bool b) (hc : ∀ b, g (.char b) = .char b) (hs : ∀ b, g (.string b) = .string b)
    (hu : ∀ b, g (.u128 b) = .u128 b) (hi : ∀ b, g (.i128 b) = .i128 b) (hu2 : ∀ b, g (.u256 b) = .u256 b) {c t v bs}
    (h : Scale reg canon f ctx c t v bs) : Scale reg canon (fun b => g (f b)) ctx c t (v.mapPrim g) bs := by
  refine Scale.rec (motive_1 := fun c t v bs _ => Scale reg canon (fun b => g (f b)) ctx c t (v.mapPrim g) bs)
    (motive_2 := fun c ts vs bs _ => ScaleAll reg canon (fun b => g (f b)) ctx c ts (mapPrimVals g vs) bs)
    ?_ ?_ ?_ ?_ ?_ ?_ ?_ ?_ ?_ ?_ ?_ ?_ ?_ ?_ ?_ ?_ ?_ h
  · intro t b ht; simp only [Value.mapPrim, ValueDef.mapPrim, hb]; exact .bool ht
  · intro t c bs ht hb; simp only [Value.mapPrim, ValueDef.mapPrim, hc]; exact .char ht hb
  · intro t s p ht hp hl h'; simp only [Value.mapPrim, ValueDef.mapPrim, hs]; exact .str ht hp hl h'
  · intro t p k n bs ht hk hb; simp only [Value.mapPrim, ValueDef.mapPrim, hu]; exact .uint ht hk hb
  · intro t p k n bs ht hk hb; simp only [Value.mapPrim, ValueDef.mapPrim, hi]; exact .int ht hk hb
  · intro t b ht; simp only [Value.mapPrim, ValueDef.mapPrim, hu2]; exact .u256 ht
  · intro t b ht; simp only [Value.mapPrim, ValueDef.mapPrim]; exact Scale.i256 (i256 := fun b => g (f b)) ht
  · intro t u v bs ht _ ih; exact .compact ht ih
  · intro t p k n bs ht hk hn hb; simp only [Value.mapPrim, ValueDef.mapPrim, hu]; exact .compactUint ht hk hn hb
  · intro t u vs p bs ht hp hl h' _ ih; simp only [Value.mapPrim, ValueDef.mapPrim, Composite.mapPrim]
    exact .sequence ht (by simpa using hp) (by simpa using hl) (by simpa using h') (by simpa using ih)
  · intro t u m vs bs ht _ ih; exact .array ht ih
  · intro c t ts vs bs ht hc _ ih; exact .tuple ht hc ih
  · intro c t fs vs cs bs ht hc _ hs ih; exact .composite ht hc ih (hasShape_mapPrim g hs)
  · intro t ds d vs cs bs ht hd _ hs ih; exact .variant ht hd ih (hasShape_mapPrim g hs)
  · intro t s o b p q ht hp hl hq; exact .bits ht hp hl hq
  · intro c; exact .nil
  · intro c t ts v vs bs bs' _ _ ih1 ih2; exact .cons ih1 ih2

/-- The same bytes with other contexts. -/
theorem scale_mapContext {Δ : Type} {reg : Reg Id} {canon : Prop} {f : Bytes32 → Primitive} {ctx : Id → Γ} (g : Γ → Δ) {c t v bs}
    (h : Scale reg canon f ctx c t v bs) : Scale reg canon f (fun u => g (ctx u)) c t (v.mapContext g) bs := by
  unfold Value.mapContext
  refine Scale.rec (motive_1 := fun c t v bs _ => Scale reg canon f (fun u => g (ctx u)) c t (v.mapContextS (fun (s : Unit) t => (g t, s)) ()) bs)
    (motive_2 := fun c ts vs bs _ => ScaleAll reg canon f (fun u => g (ctx u)) c ts (mapValsS (fun (s : Unit) t => (g t, s)) vs ()) bs)
    ?_ ?_ ?_ ?_ ?_ ?_ ?_ ?_ ?_ ?_ ?_ ?_ ?_ ?_ ?_ ?_ ?_ h
  · intro t b ht; simp only [Value.mapContextS, ValueDef.mapContextS]; exact .bool ht
  · intro t c bs ht hb; simp only [Value.mapContextS, ValueDef.mapContextS]; exact .char ht hb
  · intro t s p ht hp hl h'; simp only [Value.mapContextS, ValueDef.mapContextS]; exact .str ht hp hl h'
  · intro t p k n bs ht hk hb; simp only [Value.mapContextS, ValueDef.mapContextS]; exact .uint ht hk hb
  · intro t p k n bs ht hk hb; simp only [Value.mapContextS, ValueDef.mapContextS]; exact .int ht hk hb
  · intro t b ht; simp only [Value.mapContextS, ValueDef.mapContextS]; exact .u256 ht
  · intro t b ht; simp only [Value.mapContextS, ValueDef.mapContextS]; exact .i256 ht
  · intro t u v bs ht _ ih; exact .compact ht ih
  · intro t p k n bs ht hk hn hb; simp only [Value.mapContextS, ValueDef.mapContextS]; exact .compactUint ht hk hn hb
  · intro t u vs p bs ht hp hl h' _ ih; simp only [Value.mapContextS, ValueDef.mapContextS, Composite.mapContextS]
    rw [← mapValsS_length (fun (s : Unit) t => (g t, s)) ()] at hp hl h' ih
    exact .sequence ht hp hl h' ih
  · intro t u m vs bs ht _ ih; exact .array ht ih
  · intro c t ts vs bs ht hc _ ih; exact .tuple ht hc ih
  · intro c t fs vs cs bs ht hc _ hs ih; exact .composite ht hc ih (hasShape_mapContext _ hs)
  · intro t ds d vs cs bs ht hd _ hs ih; exact .variant ht hd ih (hasShape_mapContext _ hs)
  · intro t s o b p q ht hp hl hq; exact .bits ht hp hl hq
  · intro c; exact .nil
  · intro c t ts v vs bs bs' _ _ ih1 ih2; exact .cons ih1 ih2

theorem scale_unsigned {reg : Reg Id} {canon : Prop} {ctx : Id → Γ} {c t} {v : Value Γ} {bs} (h : Scale reg canon .i256 ctx c t v bs) :
    Scale reg canon .u256 ctx c t (v.mapPrim unsigned) bs :=
  scale_mapPrim unsigned (fun _ => rfl) (fun _ => rfl) (fun _ => rfl) (fun _ => rfl) (fun _ => rfl) (fun _ => rfl) h

theorem hasShape_exists {fs : List (Field Id)} {vs ws : List (Value Γ)} {cs : Composite Γ} (g : Primitive → Primitive) (h : HasShape fs vs cs)
    (hw : vs = mapPrimVals g ws) : ∃ ds, cs = Composite.mapPrim g ds ∧ HasShape fs ws ds := by
  cases h with
  | @named names h1 h2 => exact ⟨.named (names.zip ws), by rw [Composite.mapPrim, mapPrimFields_zip, hw], .named h1 h2⟩
  | unnamed h1 => exact ⟨.unnamed ws, by rw [hw]; rfl, .unnamed h1⟩

/-- Every value that the plain decoder reads is what the tracing decoder reads, with 256 bit numbers taken as unsigned. -/
theorem scale_signed {reg : Reg Id} {canon : Prop} {ctx : Id → Γ} {c t} {v : Value Γ} {bs} (h : Scale reg canon .u256 ctx c t v bs) :
    ∃ w : Value Γ, v = w.mapPrim unsigned ∧ Scale reg canon .i256 ctx c t w bs := by
  refine Scale.rec (motive_1 := fun c t v bs _ => ∃ w : Value Γ, v = w.mapPrim unsigned ∧ Scale reg canon .i256 ctx c t w bs)
    (motive_2 := fun c ts vs bs _ => ∃ ws : List (Value Γ), vs = mapPrimVals unsigned ws ∧ ScaleAll reg canon .i256 ctx c ts ws bs)
    ?_ ?_ ?_ ?_ ?_ ?_ ?_ ?_ ?_ ?_ ?_ ?_ ?_ ?_ ?_ ?_ ?_ h
  · intro t b ht; exact ⟨_, rfl, .bool ht⟩
  · intro t c bs ht hb; exact ⟨_, rfl, .char ht hb⟩
  · intro t s p ht hp hl h'; exact ⟨_, rfl, .str ht hp hl h'⟩
  · intro t p k n bs ht hk hb; exact ⟨_, rfl, .uint ht hk hb⟩
  · intro t p k n bs ht hk hb; exact ⟨_, rfl, .int ht hk hb⟩
  · intro t b ht; exact ⟨_, rfl, .u256 ht⟩
  · intro t b ht; exact ⟨.mk (.primitive (.i256 b)) (ctx t), rfl, .i256 ht⟩
  · rintro t u v bs ht _ ⟨w, hw, ih⟩; exact ⟨w, hw, .compact ht ih⟩
  · intro t p k n bs ht hk hn hb; exact ⟨_, rfl, .compactUint ht hk hn hb⟩
  · rintro t u vs p bs ht hp hl h' _ ⟨ws, rfl, ih⟩
    rw [mapPrimVals_length] at hp hl h' ih
    exact ⟨_, rfl, .sequence ht hp hl h' ih⟩
  · rintro t u m vs bs ht _ ⟨ws, rfl, ih⟩; exact ⟨_, rfl, .array ht ih⟩
  · rintro c t ts vs bs ht hc _ ⟨ws, rfl, ih⟩; exact ⟨_, rfl, .tuple ht hc ih⟩
  · rintro c t fs vs cs bs ht hc _ hs ⟨ws, hw, ih⟩
    obtain ⟨ds, rfl, hs'⟩ := hasShape_exists unsigned hs hw
    exact ⟨_, rfl, .composite ht hc ih hs'⟩
  · rintro t ds d vs cs bs ht hd _ hs ⟨ws, hw, ih⟩
    obtain ⟨cs', rfl, hs'⟩ := hasShape_exists unsigned hs hw
    exact ⟨_, rfl, .variant ht hd ih hs'⟩
  · intro t s o b p q ht hp hl hq; exact ⟨_, rfl, .bits ht hp hl hq⟩
  · intro c; exact ⟨[], rfl, .nil⟩
  · rintro c t ts v vs bs bs' _ _ ⟨w, rfl, h1⟩ ⟨ws, rfl, h2⟩; exact ⟨w :: ws, rfl, .cons h1 h2⟩

/-- Where no signed 256 bit number type is reachable there is no difference. -/
theorem scale_no_i256 {reg : Reg Id} {canon : Prop} {ctx : Id → Γ} {f g : Bytes32 → Primitive} {c t} {v : Value Γ} {bs} (h : Scale reg canon f ctx c t v bs) :
    (∀ u, Reach reg t u → reg.resolve u ≠ some (.primitive .i256)) → Scale reg canon g ctx c t v bs := by
  have key : ∀ {t d}, (∀ u, Reach reg t u → reg.resolve u ≠ some (.primitive .i256)) → reg.resolve t = some d →
      ∀ w ∈ d.refs, ∀ u, Reach reg w u → reg.resolve u ≠ some (.primitive .i256) := by
    intro t d h ht w hw u hu
    refine h u ?_
    clear h
    induction hu with
    | self => exact .step .self ht hw
    | step _ h1 h2 ih => exact .step ih h1 h2
  refine Scale.rec (motive_1 := fun c t v bs _ => (∀ u, Reach reg t u → reg.resolve u ≠ some (.primitive .i256)) → Scale reg canon g ctx c t v bs)
    (motive_2 := fun c ts vs bs _ => (∀ t ∈ ts, ∀ u, Reach reg t u → reg.resolve u ≠ some (.primitive .i256)) → ScaleAll reg canon g ctx c ts vs bs)
    ?_ ?_ ?_ ?_ ?_ ?_ ?_ ?_ ?_ ?_ ?_ ?_ ?_ ?_ ?_ ?_ ?_ h
  · intro t b ht _; exact .bool ht
  · intro t c bs ht hb _; exact .char ht hb
  · intro t s p ht hp hl h' _; exact .str ht hp hl h'
  · intro t p k n bs ht hk hb _; exact .uint ht hk hb
  · intro t p k n bs ht hk hb _; exact .int ht hk hb
  · intro t b ht _; exact .u256 ht
  · intro t b ht hno; exact (hno t .self ht).elim
  · intro t u v bs ht _ ih hno; exact .compact ht (ih (key hno ht u (by simp [TypeDef.refs])))
  · intro t p k n bs ht hk hn hb _; exact .compactUint ht hk hn hb
  · intro t u vs p bs ht hp hl h' _ ih hno
    refine .sequence ht hp hl h' (ih (fun w hw => key hno ht w ?_))
    simp [TypeDef.refs, List.eq_of_mem_replicate hw]
  · intro t u m vs bs ht _ ih hno
    refine .array ht (ih (fun w hw => key hno ht w ?_))
    simp [TypeDef.refs, List.eq_of_mem_replicate hw]
  · intro c t ts vs bs ht hc _ ih hno; exact .tuple ht hc (ih (fun w hw => key hno ht w hw))
  · intro c t fs vs cs bs ht hc _ hs ih hno; exact .composite ht hc (ih (fun w hw => key hno ht w hw)) hs
  · intro t ds d vs cs bs ht hd _ hs ih hno
    refine .variant ht hd (ih (fun w hw => key hno ht w ?_)) hs
    exact List.mem_flatMap.2 ⟨d, List.mem_of_find?_eq_some hd, hw⟩
  · intro t s o b p q ht hp hl hq _; exact .bits ht hp hl hq
  · intro c _; exact .nil
  · intro c t ts v vs bs bs' _ _ ih1 ih2 hno
    exact .cons (ih1 (hno t (by simp))) (ih2 (fun w hw => hno w (by simp [hw])))

/-! ### The errors of the plain decoder -/

theorem decItems_err {dec : Id → List UInt8 → Option (Out DErr (Value Γ × List UInt8))} {ts1 : List Id} {t : Id} {ts2 : List Id} {p r : List UInt8}
    {vs : List (Value Γ)} {e : DErr} (h1 : decItems dec ts1 (p ++ r) = some (.ok (vs, r))) (h2 : dec t r = some (.err e)) :
    decItems dec (ts1 ++ t :: ts2) (p ++ r) = some (.err (e, r)) := by
  generalize p ++ r = bs at h1
  induction ts1 generalizing bs vs with
  | nil => simp only [decItems] at h1; cases h1; simp [decItems, h2]
  | cons u us ih =>
    simp only [decItems] at h1
    split at h1
    · cases h1
    · cases h1
    · cases h1
    · rename_i v r' h3
      split at h1
      · rename_i vs' r'' h4
        cases h1
        simp only [List.cons_append, decItems, h3]
        rw [ih _ h4]
      · rename_i h4
        exact (h4 _ _ h1).elim

theorem decItems_complete (reg : Reg Id) (al : Nat → Bool) (hal : ∀ n, al n = true) (canon : Prop) (ctx : Id → Γ) {c ts} {vs : List (Value Γ)} {p}
    (h : ScaleAll reg canon .u256 ctx c ts vs p) (r : List UInt8) : ∃ n, decItems (decN reg al ctx n c) ts (p ++ r) = some (.ok (vs, r)) := by
  induction vs generalizing ts p with
  | nil => cases h; exact ⟨0, rfl⟩
  | cons v vs ih => cases h with
    | @cons _ _ _ _ _ p1 p2 h1 h2 =>
      obtain ⟨n2, h2⟩ := ih h2
      obtain ⟨n1, h1⟩ := decN_complete_aux reg al hal canon ctx h1 (p2 ++ r)
      refine ⟨max n1 n2, ?_⟩
      have h1 := decN_mono reg al ctx (Nat.le_max_left n1 n2) _ _ _ _ h1
      have h2 := decItems_ext (decN_mono reg al ctx (Nat.le_max_right n1 n2) _) _ _ _ h2
      rw [List.append_assoc, decItems, h1]
      simp only
      rw [h2]

theorem scaleAll_map {reg : Reg Id} {canon : Prop} {f g : Bytes32 → Primitive} {ctx ctx' : Id → Γ} {c}
    (h : ∀ t v bs, Scale reg canon f ctx c t v bs → ∃ w, Scale reg canon g ctx' c t w bs) {ts vs bs} :
    ScaleAll reg canon f ctx c ts vs bs → ∃ ws, ScaleAll reg canon g ctx' c ts ws bs := by
  intro h'
  induction vs generalizing ts bs with
  | nil => cases h'; exact ⟨[], .nil⟩
  | cons v vs ih => cases h' with
    | cons h1 h2 =>
      obtain ⟨w, h1⟩ := h _ _ _ h1
      obtain ⟨ws, h2⟩ := ih h2
      exact ⟨w :: ws, .cons h1 h2⟩

theorem parts_decN {reg : Reg Id} {al : Nat → Bool} {c c' : Bool} {t ty : Id} {bs r r' : List UInt8} {s : DStep Id} {fs : List (Field Id)}
    {mk : Composite Id → Value Id} {n : Nat} {e : DErr} (hal : ∀ n, al n = true) (hv : visit reg c t bs = .ok ⟨ty, c', s⟩) (hp : s.parts ty = some (fs, r, mk))
    (h : decItems (decN reg al id n c') (fs.map (fun f => f.id)) r = some (.err (e, r'))) : decN reg al id (n + 1) c t bs = some (.err e) := by
  rw [decN, hv]
  cases s with
  | leaf l q => cases hp
  | items ts q =>
    cases hp
    simp only [List.map_map, Function.comp_def, List.map_id'] at h
    simp only
    rw [decUnnamed, hal, h]; rfl
  | composite gs q =>
    cases hp
    simp only
    rw [decComposite_eq, hal, h]; rfl
  | variant nm gs q =>
    cases hp
    simp only
    rw [decComposite_eq, hal, h]; rfl

/-- A failure, other than for having too many entries, is a failure of the plain decoder for the same reason. -/
theorem failsVisit_plain {reg : Reg Id} {al : Nat → Bool} (hal : ∀ n, al n = true) {c t bs path soFar e}
    (h : FailsVisit reg c t bs path soFar e) : e ≠ .tooManyEntries → ∃ n, decN reg al id n c t bs = some (.err e) := by
  induction h with
  | here hv => intro _; exact ⟨1, by rw [decN, hv]⟩
  | tooMany => intro h; exact (h rfl).elim
  | tooManyVariant => intro h; exact (h rfl).elim
  | @part c t bs ty c' s fs r mk k f p r' vs seg path soFar e cs hv hp hk hr hs _ _ hf h5 h6 ih =>
    intro he
    obtain ⟨n1, h1⟩ := ih he
    obtain ⟨ws, hw⟩ := scaleAll_map (fun t v bs h => ⟨_, scale_unsigned h⟩) hs
    obtain ⟨n2, h2⟩ := decItems_complete reg al hal False id hw r'
    refine ⟨max n1 n2 + 1, parts_decN (r' := r') hal hv hp ?_⟩
    have h1 := decN_mono reg al id (Nat.le_max_left n1 n2) _ _ _ _ h1
    have h2 := decItems_ext (decN_mono reg al id (Nat.le_max_right n1 n2) _) _ _ _ h2
    have hfs : fs = fs.take k ++ f :: fs.drop (k + 1) := by
      obtain ⟨hk', hk⟩ := List.getElem?_eq_some_iff.1 hk
      rw [← hk, List.getElem_cons_drop, List.take_append_drop]
    rw [hfs, List.map_append, List.map_cons, hr]
    exact decItems_err h2 h1

/-! ### The tracing decoder reads everything that has no huge group -/

theorem trGroup_of_parts {al : Nat → Bool} (hal : ∀ n, al n = true) {dec : TDec Id} {path : Path} {fs : List (Field Id)} {bs : List UInt8} {x}
    (hs : ¬ AllNamed fs → fs.length ≤ 100000000) (h : trParts dec path fs fs 0 [] bs = some x) : trGroup al dec path fs bs = some x := by
  unfold trGroup
  rw [if_neg, hal]
  · exact h
  · rintro ⟨h1, h2⟩
    have := hs (by rw [← allNamed_iff, h1]; simp)
    unfold maxCapacity at h2
    omega

theorem trParts_ext {f g : TDec Id} (h : TExt f g) (path : Path) (all : List (Field Id)) : ∀ fs k vs bs r, trParts f path all fs k vs bs = some r →
    trParts g path all fs k vs bs = some r := by
  intro fs
  induction fs with
  | nil => intro k vs bs r hr; exact hr
  | cons x fs ih =>
    intro k vs bs r hr
    simp only [trParts] at hr ⊢
    cases hf : f (path ++ [segAt all k]) x.id bs with
    | none => rw [hf] at hr; cases hr
    | some o =>
      rw [h _ _ _ _ hf]; rw [hf] at hr
      cases o with
      | panic => exact hr
      | err e => exact hr
      | ok x => exact ih _ _ _ _ hr

theorem trN_compact {reg : Reg Id} {al : Nat → Bool} {t u : Id} (ht : reg.resolve t = some (.compact u)) (n : Nat) (path : Path) (bs : List UInt8) :
    trN reg al n false path t bs = trN reg al n true path u bs := by
  cases n with
  | zero => rfl
  | succ n => rw [trN, trN, visit_compact ht]

theorem trN_leaf {reg : Reg Id} {al : Nat → Bool} {c c' : Bool} {t ty : Id} {path : Path} {bs r : List UInt8} {l : Leaf}
    (h : visit reg c t bs = .ok ⟨ty, c', .leaf l r⟩) : trN reg al 1 c path t bs = some (.ok (trLeaf ty l, r)) := by
  rw [trN, h]

theorem trN_complete (reg : Reg Id) (al : Nat → Bool) (hal : ∀ n, al n = true) (canon : Prop) {c t v p}
    (h : Scale reg canon .i256 id c t v p) : SmallGroups v → ∀ path r, ∃ n, trN reg al n c path t (p ++ r) = some (.ok (v, r)) := by
  refine Scale.rec (motive_1 := fun c t v p _ => SmallGroups v → ∀ path r, ∃ n, trN reg al n c path t (p ++ r) = some (.ok (v, r)))
    (motive_2 := fun c ts vs p _ => (∀ v ∈ vs, SmallGroups v) → ∀ path r all fs k vs0, fs.map (fun f : Field Id => f.id) = ts →
      ∃ n, trParts (trN reg al n c) path all fs k vs0 (p ++ r) = some (.ok (partialOf all (vs0 ++ vs), r)))
    ?_ ?_ ?_ ?_ ?_ ?_ ?_ ?_ ?_ ?_ ?_ ?_ ?_ ?_ ?_ ?_ ?_ h
  · intro t b ht _ path r
    exact ⟨1, trN_leaf ((visit_leaf_complete r).1 b ht)⟩
  · intro t c bs ht hb _ path r
    exact ⟨1, trN_leaf ((visit_leaf_complete r).2.1 c bs ht hb)⟩
  · intro t s p ht hp hl _ _ path r
    exact ⟨1, trN_leaf ((visit_leaf_complete r).2.2.1 s p ht hp hl)⟩
  · intro t p k n bs ht hk hb _ path r
    exact ⟨1, trN_leaf ((visit_leaf_complete r).2.2.2.1 p k n bs ht hk hb)⟩
  · intro t p k n bs ht hk hb _ path r
    exact ⟨1, trN_leaf ((visit_leaf_complete r).2.2.2.2.1 p k n bs ht hk hb)⟩
  · intro t b ht _ path r
    exact ⟨1, trN_leaf ((visit_leaf_complete r).2.2.2.2.2.1 b ht)⟩
  · intro t b ht _ path r
    exact ⟨1, trN_leaf ((visit_leaf_complete r).2.2.2.2.2.2.1 b ht)⟩
  · intro t u v bs ht _ ih hsm path r
    obtain ⟨n, hn⟩ := ih hsm path r
    exact ⟨n, by rw [trN_compact ht]; exact hn⟩
  · intro t p k n bs ht hk hn hb _ path r
    exact ⟨1, trN_leaf ((visit_leaf_complete r).2.2.2.2.2.2.2 p k n bs ht hk hn hb)⟩
  · intro t u vs p bs ht hp hl _ hall ih hsm path r
    obtain ⟨n, hn⟩ := ih (fun w hw => smallGroups_child hsm hw) path r ((List.replicate vs.length u).map (fun t => ⟨none, t⟩)) ((List.replicate vs.length u).map (fun t => ⟨none, t⟩)) 0 [] (by simp only [List.map_map, Function.comp_def, List.map_id'])
    refine ⟨n + 1, ?_⟩
    rw [trN, List.append_assoc, visit_sequence ht hp hl]
    simp only
    have hle := hsm _ vs (.self _) rfl
    rw [trUnnamed_eq, trGroup_of_parts hal (by simpa using fun _ => hle) hn, List.nil_append, partialOf, isNamed_items]; rfl
  · intro t u m vs bs ht hall ih hsm path r
    obtain ⟨n, hn⟩ := ih (fun w hw => smallGroups_child hsm hw) path r ((List.replicate m u).map (fun t => ⟨none, t⟩)) ((List.replicate m u).map (fun t => ⟨none, t⟩)) 0 [] (by simp only [List.map_map, Function.comp_def, List.map_id'])
    refine ⟨n + 1, ?_⟩
    rw [trN, visit_array ht]
    simp only
    have hle := hsm _ vs (.self _) rfl
    have hl := scaleAll_length hall
    rw [List.length_replicate] at hl
    rw [trUnnamed_eq, trGroup_of_parts hal (by simp only [List.length_map, List.length_replicate]; omega) hn, List.nil_append, partialOf, isNamed_items]; rfl
  · intro c t ts vs bs ht hc hall ih hsm path r
    obtain ⟨n, hn⟩ := ih (fun w hw => smallGroups_child hsm hw) path r (ts.map (fun t => ⟨none, t⟩)) (ts.map (fun t => ⟨none, t⟩)) 0 [] (by simp only [List.map_map, Function.comp_def, List.map_id'])
    refine ⟨n + 1, ?_⟩
    rw [trN, visit_tuple ht hc]
    simp only
    have hle := hsm _ vs (.self _) rfl
    have hl := scaleAll_length hall
    rw [trUnnamed_eq, trGroup_of_parts hal (by simp only [List.length_map]; omega) hn, List.nil_append, partialOf, isNamed_items]; rfl
  · intro c t fs vs cs bs ht hc hall hs ih hsm path r
    have hl := scaleAll_length hall
    rw [List.length_map] at hl
    have hch := hasShape_vals hs (by omega)
    obtain ⟨n, hn⟩ := ih (fun w hw => smallGroups_child hsm (by rw [← hch] at hw; cases cs <;> exact hw)) path r fs _ 0 [] rfl
    refine ⟨n + 1, ?_⟩
    rw [trN, visit_composite ht hc]
    simp only
    rw [trGroupOf_eq, trGroup_of_parts hal ?_ hn, List.nil_append, ← partialOf_shape.1 hs]; rfl
    intro hna
    have hcs : cs = .unnamed vs := by rw [partialOf_shape.1 hs, partialOf, if_neg (fun h => hna ((allNamed_iff fs).1 h))]
    have hle := hsm _ vs (.self _) (by rw [hcs]; rfl)
    omega
  · intro t ds d vs cs bs ht hd hall hs ih hsm path r
    have hl := scaleAll_length hall
    rw [List.length_map] at hl
    have hch := hasShape_vals hs (by omega)
    obtain ⟨n, hn⟩ := ih (fun w hw => smallGroups_child hsm (by rw [← hch] at hw; cases cs <;> exact hw)) path r d.fields _ 0 [] rfl
    refine ⟨n + 1, ?_⟩
    rw [trN, List.cons_append, visit_variant ht hd]
    simp only
    rw [trGroupOf_eq, trGroup_of_parts hal ?_ hn, List.nil_append, ← partialOf_shape.1 hs]; rfl
    intro hna
    have hcs : cs = .unnamed vs := by rw [partialOf_shape.1 hs, partialOf, if_neg (fun h => hna ((allNamed_iff d.fields).1 h))]
    have hle := hsm _ vs (.self _) (by rw [hcs]; rfl)
    omega
  · intro t s o b p q ht hp hl hq _ path r
    exact ⟨1, trN_leaf (visit_bits ht (bitsDec_complete hp hl hq r))⟩
  · intro c _ path r all fs k vs0 hfs
    have : fs = [] := by simpa using hfs
    subst this
    exact ⟨0, by simp [trParts]⟩
  · intro c t ts v vs bs bs' _ _ ih1 ih2 hsm path r all fs k vs0 hfs
    cases fs with
    | nil => simp at hfs
    | cons f fs =>
      rw [List.map_cons, List.cons.injEq] at hfs
      obtain ⟨rfl, hfs⟩ := hfs
      obtain ⟨n1, h1⟩ := ih1 (hsm v (by simp)) (path ++ [segAt all k]) (bs' ++ r)
      obtain ⟨n2, h2⟩ := ih2 (fun w hw => hsm w (by simp [hw])) path r all fs (k + 1) (vs0 ++ [v]) hfs
      refine ⟨max n1 n2, ?_⟩
      have h1 := trN_mono reg al (Nat.le_max_left n1 n2) _ _ _ _ _ h1
      have h2 := trParts_ext (trN_mono reg al (Nat.le_max_right n1 n2) c) _ _ _ _ _ _ _ h2
      rw [List.append_assoc, trParts, h1]
      simp only
      rw [h2, List.append_assoc]; rfl

/-! ### No panics -/

theorem trParts_no_panic {dec : TDec Id} (hd : ∀ p t bs, dec p t bs ≠ some .panic) {path : Path} {all : List (Field Id)} : ∀ fs k vs bs,
    trParts dec path all fs k vs bs ≠ some .panic := by
  intro fs
  induction fs with
  | nil => intro k vs bs h; simp only [trParts] at h; cases h
  | cons f fs ih =>
    intro k vs bs h
    simp only [trParts] at h
    split at h
    · cases h
    · rename_i h1; exact hd _ _ _ h1
    · cases h
    · exact ih _ _ _ h

theorem trGroup_no_panic {al : Nat → Bool} {dec : TDec Id} (hd : ∀ p t bs, dec p t bs ≠ some .panic) {path : Path} {fs : List (Field Id)} {bs : List UInt8}
    (hs : ∀ n, n ≤ 100000000 → al n = true) (hf : AllNamed fs → al fs.length = true) : trGroup al dec path fs bs ≠ some .panic := by
  unfold trGroup
  by_cases hn : isNamed fs = true
  · rw [if_neg (by rintro ⟨h, -⟩; rw [hn] at h; cases h), hf ((allNamed_iff fs).1 hn)]
    exact trParts_no_panic hd _ _ _ _
  · by_cases hl : fs.length > maxCapacity
    · rw [if_pos ⟨by simpa using hn, hl⟩]; simp
    · rw [if_neg (by rintro ⟨-, h⟩; exact hl h), hs _ (by unfold maxCapacity at hl; omega)]
      exact trParts_no_panic hd _ _ _ _

theorem trMkVal_panic {ty : Id} {a : Option (Out (TErr (Composite Id)) (Composite Id × List UInt8))} (h : trMkVal ty a = some .panic) : a = some .panic := by
  unfold trMkVal at h
  split at h <;> first | rfl | cases h

/-- The fields which a step has to do with are fields from the registry. -/
theorem visit_fields {reg : Reg Id} {c : Bool} {t : Id} {bs : List UInt8} {w : Visit Id} (h : visit reg c t bs = .ok w) :
    (∀ fs r, w.step = .composite fs r → ∃ u, reg.resolve u = some (.composite fs)) ∧
    (∀ n fs r, w.step = .variant n fs r → ∃ u ds d, reg.resolve u = some (.variant ds) ∧ d ∈ ds ∧ d.fields = fs) := by
  have hleaf : ∀ (x : Except DErr (Leaf × List UInt8)) (s : DStep Id), leafStep x = .ok s → ∃ l r, s = .leaf l r := by
    intro x s hx
    unfold leafStep at hx
    split at hx
    · cases hx
    · cases hx; exact ⟨_, _, rfl⟩
  have hc : ∀ u s, visitCompact reg u bs = .ok s → (∀ fs r, s = .composite fs r → ∃ u, reg.resolve u = some (.composite fs)) ∧
      (∀ n fs r, s = .variant n fs r → ∃ u ds d, reg.resolve u = some (.variant ds) ∧ d ∈ ds ∧ d.fields = fs) := by
    intro u s hs
    unfold visitCompact at hs
    split at hs
    · cases hs
    · obtain ⟨l, r, rfl⟩ := hleaf _ _ hs; exact ⟨by simp, by simp⟩
    · rename_i fs hr
      split at hs
      · cases hs; exact ⟨fun fs' r h => by cases h; exact ⟨u, hr⟩, by simp⟩
      · cases hs
    · split at hs
      · cases hs; exact ⟨by simp, by simp⟩
      · cases hs
    · cases hs
  unfold visit at h
  split at h
  · split at h
    · cases h
    · cases h; rename_i s hs; exact hc _ _ hs
  · split at h
    · split at h
      · cases h
      · cases h; rename_i s hs; exact hc _ _ hs
    · split at h
      · cases h
      · cases h
        rename_i s hs
        unfold visitPlain at hs
        split at hs
        · cases hs
        · obtain ⟨l, r, rfl⟩ := hleaf _ _ hs; exact ⟨by simp, by simp⟩
        · rename_i fs hr
          cases hs; exact ⟨fun fs' r h => by cases h; exact ⟨t, hr⟩, by simp⟩
        · cases hs; exact ⟨by simp, by simp⟩
        · cases hs; exact ⟨by simp, by simp⟩
        · split at hs
          · cases hs
          · cases hs; exact ⟨by simp, by simp⟩
        · rename_i vs hr
          split at hs
          · cases hs
          · split at hs
            · cases hs
            · rename_i i _ d hd
              cases hs
              exact ⟨by simp, fun n fs r h => by cases h; exact ⟨t, vs, d, hr, List.mem_of_find?_eq_some hd, rfl⟩⟩
        · split at hs
          · cases hs
          · cases hs; exact ⟨by simp, by simp⟩
        · cases hs

theorem trN_no_panic (reg : Reg Id) (al : Nat → Bool) (hs : ∀ n, n ≤ 100000000 → al n = true)
    (hc : ∀ u fs, reg.resolve u = some (.composite fs) → al fs.length = true)
    (hv : ∀ u ds d, reg.resolve u = some (.variant ds) → d ∈ ds → al d.fields.length = true) (n : Nat) : ∀ c path t bs,
    trN reg al n c path t bs ≠ some .panic := by
  induction n with
  | zero => intro c path t bs h; cases h
  | succ n ih =>
    intro c path t bs h
    rw [trN] at h
    split at h
    · cases h
    · cases h
    · have h := trMkVal_panic h
      rw [trUnnamed_eq] at h
      exact trGroup_no_panic (ih _) hs (fun hn => by
        have := (allNamed_iff _).2 hn
        rw [isNamed_items] at this; cases this) h
    · rename_i ty c' fs r hw
      have h := trMkVal_panic h
      rw [trGroupOf_eq] at h
      obtain ⟨u, hu⟩ := (visit_fields hw).1 fs r rfl
      exact trGroup_no_panic (ih _) hs (fun _ => hc u fs hu) h
    · rename_i ty c' name fs r hw
      rw [trGroupOf_eq] at h
      obtain ⟨u, ds, d, hu, hd, rfl⟩ := (visit_fields hw).2 name fs r rfl
      unfold trMkVariant at h
      split at h
      · cases h
      · rename_i h1; exact trGroup_no_panic (ih _) hs (fun _ => hv u ds d hu hd) h1
      · cases h
      · cases h

/-! ### Every failure of the specification is met -/

/-- The error that stands for a failure. -/
def errOf (path : Path) (rel : Path) (soFar : Option (Value Id)) (e : DErr) : TErr (Value Id) :=
  match soFar with
  | none => .fromDecode e
  | some v => .fromVisitor (path ++ rel) v e

theorem failsVisit_none {reg : Reg Id} {c t bs path e} (h : FailsVisit reg c t bs path none e) : path = [] := by
  cases h <;> rfl

theorem partial_unique {fs : List (Field Id)} {vs : List (Value Id)} {cs : Composite Id} (h : Partial fs vs cs) : cs = partialOf fs vs := by
  cases h with
  | named h => rw [partialOf, if_pos ((allNamed_iff fs).2 h)]
  | unnamed h => rw [partialOf, if_neg (fun hc => h ((allNamed_iff fs).1 hc))]

theorem segOf_unique {fs : List (Field Id)} {k : Nat} {seg : PathSeg} (h : SegOf fs k seg) : seg = segAt fs k := by
  cases h with
  | field h1 h2 h3 => rw [segAt, if_pos ((allNamed_iff fs).2 h1), h2]; simp [h3]
  | index h => rw [segAt, if_neg (fun hc => h ((allNamed_iff fs).1 hc))]

theorem trParts_complete (reg : Reg Id) (al : Nat → Bool) (hal : ∀ n, al n = true) {c vs p} (path : Path) (all : List (Field Id)) :
    ∀ (fs1 fs2 : List (Field Id)) k vs0, ScaleAll reg False .i256 id c (fs1.map (fun f => f.id)) vs p → (∀ v ∈ vs, SmallGroups v) → ∀ r,
    ∃ n, ∀ m, n ≤ m → trParts (trN reg al m c) path all (fs1 ++ fs2) k vs0 (p ++ r) = trParts (trN reg al m c) path all fs2 (k + fs1.length) (vs0 ++ vs) r := by
  intro fs1
  induction fs1 generalizing vs p with
  | nil => intro fs2 k vs0 h _ r; cases h; exact ⟨0, fun m _ => by simp⟩
  | cons f fs ih =>
    intro fs2 k vs0 h hsm r
    rw [List.map_cons] at h
    cases h with
    | @cons _ _ _ v vs p1 p2 h1 h2 =>
      obtain ⟨n1, h1⟩ := trN_complete reg al hal False h1 (hsm v (by simp)) (path ++ [segAt all k]) (p2 ++ r)
      obtain ⟨n2, h2⟩ := ih fs2 (k + 1) (vs0 ++ [v]) h2 (fun w hw => hsm w (by simp [hw])) r
      refine ⟨max n1 n2, fun m hm => ?_⟩
      have h1 := trN_mono reg al (Nat.le_trans (Nat.le_max_left n1 n2) hm) _ _ _ _ _ h1
      rw [List.append_assoc, List.cons_append, trParts, h1]
      simp only
      rw [h2 m (Nat.le_trans (Nat.le_max_right n1 n2) hm)]
      simp only [List.length_cons, List.append_assoc, List.singleton_append]
      rw [show k + 1 + fs.length = k + (fs.length + 1) by omega]

theorem trGroup_parts_eq {al : Nat → Bool} (hal : ∀ n, al n = true) {dec : TDec Id} {path : Path} {fs : List (Field Id)} {bs : List UInt8}
    (hl : ¬ (¬ AllNamed fs ∧ 100000000 < fs.length)) : trGroup al dec path fs bs = trParts dec path fs fs 0 [] bs := by
  unfold trGroup
  rw [if_neg, hal]
  · rfl
  · rintro ⟨h1, h2⟩
    exact hl ⟨by rw [← allNamed_iff, h1]; simp, h2⟩

theorem trGroup_tooMany {al : Nat → Bool} {dec : TDec Id} {path : Path} {fs : List (Field Id)} {bs : List UInt8}
    (h1 : ¬ AllNamed fs) (h2 : 100000000 < fs.length) : trGroup al dec path fs bs = some (.err (.fromDecode .tooManyEntries)) := by
  unfold trGroup
  rw [if_pos ⟨by rw [← Bool.not_eq_true, allNamed_iff]; exact h1, h2⟩]

theorem failsVisit_complete {reg : Reg Id} {al : Nat → Bool} (hal : ∀ n, al n = true) {c t bs rel soFar e} (h : FailsVisit reg c t bs rel soFar e) :
    ∀ path, ∃ n, trN reg al n c path t bs = some (.err (errOf path rel soFar e)) := by
  induction h with
  | here hv => intro path; exact ⟨1, by rw [trN, hv]; rfl⟩
  | @tooMany c t bs ty c' s fs r mk hv hp hnv hn hl =>
    intro path
    refine ⟨1, ?_⟩
    rw [trN, hv]
    cases s with
    | leaf l q => cases hp
    | items ts q => cases hp; simp only; rw [trUnnamed_eq, trGroup_tooMany hn hl]; rfl
    | composite gs q => cases hp; simp only; rw [trGroupOf_eq, trGroup_tooMany hn hl]; rfl
    | variant nm gs q => exact (hnv _ _ _ rfl).elim
  | @tooManyVariant c t bs ty c' name fs r hv hn hl =>
    intro path
    refine ⟨1, ?_⟩
    rw [trN, hv]
    simp only
    rw [trGroupOf_eq, trGroup_tooMany hn hl]; rfl
  | @part c t bs ty c' s fs r mk k f p r' vs seg rel soFar e cs hv hp hk hr hs hsm hl hf h5 h6 ih =>
    intro path
    obtain ⟨n1, h1⟩ := ih (path ++ [segAt fs k])
    have hfs : fs = fs.take k ++ f :: fs.drop (k + 1) := by
      obtain ⟨hk', hk⟩ := List.getElem?_eq_some_iff.1 hk
      rw [← hk, List.getElem_cons_drop, List.take_append_drop]
    obtain ⟨n2, h2⟩ := trParts_complete reg al hal path fs (fs.take k) (f :: fs.drop (k + 1)) 0 [] hs hsm r'
    have hkl : (fs.take k).length = k := by
      have := (List.getElem?_eq_some_iff.1 hk).1
      rw [List.length_take]; omega
    have hg : trGroup al (trN reg al (max n1 n2) c') path fs r = some (.err (.fromVisitor (path ++ seg :: rel) cs e)) := by
      rw [trGroup_parts_eq hal hl, hr]
      have h3 := h2 (max n1 n2) (Nat.le_max_right _ _)
      rw [← hfs] at h3
      rw [h3, trParts]
      have h1 := trN_mono reg al (Nat.le_max_left n1 n2) _ _ _ _ _ h1
      rw [hkl, Nat.zero_add, h1, partial_unique h6, segOf_unique h5]
      cases soFar with
      | none =>
        have := failsVisit_none hf
        subst this
        simp [errOf, TErr.withOuter]
      | some v => simp [errOf, TErr.withOuter]
    refine ⟨max n1 n2 + 1, ?_⟩
    rw [trN, hv]
    cases s with
    | leaf l q => cases hp
    | items ts q => cases hp; simp only; rw [trUnnamed_eq, hg]; rfl
    | composite gs q => cases hp; simp only; rw [trGroupOf_eq, hg]; rfl
    | variant nm gs q => cases hp; simp only; rw [trGroupOf_eq, hg]; rfl

theorem mapPrimVals_eq {T : Type} (g : Primitive → Primitive) (vs : List (Value T)) : mapPrimVals g vs = vs.map (fun v => v.mapPrim g) := by
  induction vs with
  | nil => rfl
  | cons v vs ih => rw [mapPrimVals, ih, List.map_cons]

theorem mapPrimFields_snd {T : Type} (g : Primitive → Primitive) (fs : List (Str × Value T)) :
    (mapPrimFields g fs).map (fun p => p.2) = (fs.map (fun p => p.2)).map (fun v => v.mapPrim g) := by
  induction fs with
  | nil => rfl
  | cons v vs ih => obtain ⟨k, v⟩ := v; rw [mapPrimFields, List.map_cons, ih, List.map_cons, List.map_cons]

theorem children_mapPrim {T : Type} (g : Primitive → Primitive) (v : Value T) : (v.mapPrim g).children = v.children.map (fun v => v.mapPrim g) := by
  obtain ⟨d, c⟩ := v
  cases d with
  | composite cs => cases cs with
    | named fs => exact mapPrimFields_snd g fs
    | unnamed vs => exact mapPrimVals_eq g vs
  | variant x => obtain ⟨n, cs⟩ := x; cases cs with
    | named fs => exact mapPrimFields_snd g fs
    | unnamed vs => exact mapPrimVals_eq g vs
  | bitSequence b => rfl
  | primitive p => rfl

theorem sub_mapPrim {T : Type} (g : Primitive → Primitive) {v w : Value T} (h : Sub v w) : Sub (v.mapPrim g) (w.mapPrim g) := by
  induction h with
  | self => exact .self _
  | child hu _ ih => exact .child (by rw [children_mapPrim]; exact List.mem_map_of_mem hu) ih

theorem smallGroups_mapPrim {T : Type} {g : Primitive → Primitive} {v : Value T} (h : SmallGroups (v.mapPrim g)) : SmallGroups v := by
  intro w vs hw hf
  have := h (w.mapPrim g) (mapPrimVals g vs) (sub_mapPrim g hw) (by
    obtain ⟨d, c⟩ := w
    cases d with
    | composite cs => cases hf; rfl
    | variant x => obtain ⟨n, cs⟩ := x; cases hf; rfl
    | bitSequence b => cases hf
    | primitive p => cases hf)
  rwa [mapPrimVals_length] at this

/-! ### The failures as specified -/

theorem parts_eq_split (ty : Id) (s : DStep Id) : s.parts ty = s.split.map (fun x => (x.2.1, x.2.2, nodeOf ty x.1)) := by
  cases s <;> rfl

theorem failsAt_iff {reg : Reg Id} {c t bs path soFar e} : FailsAt reg c t bs path soFar e ↔ FailsVisit reg c t bs path soFar e := by
  constructor
  · intro h
    induction h with
    | here h => exact .here (visit_error_iff.2 h)
    | @tooMany c t bs ty c' fs r h hn hl =>
      obtain ⟨s, hv, hs⟩ := visit_parts_iff.1 h
      exact .tooMany (mk := nodeOf ty none) hv (by rw [parts_eq_split, hs]; rfl) (by rintro n fs' r' rfl; cases hs) hn hl
    | @tooManyVariant c t bs ty c' name fs r h hn hl =>
      obtain ⟨s, hv, hs⟩ := visit_parts_iff.1 h
      cases s <;> simp only [DStep.split] at hs <;> cases hs
      exact .tooManyVariant hv hn hl
    | @part c t bs ty c' name fs r k f p r' vs seg path soFar e cs h hf hr before small hl fails hs hc ih =>
      obtain ⟨s, hv, hsp⟩ := visit_parts_iff.1 h
      exact .part (mk := nodeOf ty name) hv (by rw [parts_eq_split, hsp]; rfl) hf hr before small hl ih hs hc
  · intro h
    induction h with
    | here h => exact .here (visit_error_iff.1 h)
    | @tooMany c t bs ty c' s fs r mk hv hp hs hn hl =>
      rw [parts_eq_split] at hp
      cases s with
      | leaf => cases hp
      | items ts q => cases hp; exact .tooMany (visit_parts_iff.2 ⟨_, hv, rfl⟩) hn hl
      | composite gs q => cases hp; exact .tooMany (visit_parts_iff.2 ⟨_, hv, rfl⟩) hn hl
      | variant n gs q => exact (hs _ _ _ rfl).elim
    | tooManyVariant hv hn hl => exact .tooManyVariant (visit_parts_iff.2 ⟨_, hv, rfl⟩) hn hl
    | @part c t bs ty c' s fs r mk k f p r' vs seg path soFar e cs hv hp hk hr hs hsm hl hf h5 h6 ih =>
      rw [parts_eq_split] at hp
      obtain ⟨⟨name, fs', q⟩, hsp, hx⟩ := Option.map_eq_some_iff.1 hp
      cases hx
      exact .part (visit_parts_iff.2 ⟨_, hv, hsp⟩) hk hr hs hsm hl ih h5 h6

end SV
