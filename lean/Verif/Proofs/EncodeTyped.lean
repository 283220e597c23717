import Verif.Proofs.EncodePrim
import Verif.Proofs.TraceErr
/-
From typed values and from decoded bytes to canonical encodings.
-/
namespace SV

variable {Id Γ Δ : Type}

theorem short_child {v u : Value Γ} (h : Short v) (hu : u ∈ v.children) : Short u := fun w hw => h w (.child hu hw)

theorem noBits_ref {reg : Reg Id} {t u : Id} {d : TypeDef Id} (h : NoBits reg t) (ht : reg.resolve t = some d) (hu : u ∈ d.refs) : NoBits reg u := by
  intro w hw
  refine h w ?_
  clear h
  induction hw with
  | self => exact .step .self ht hu
  | step _ h1 h2 ih => exact .step ih h1 h2

/-- The same value has a canonical encoding of the same length; without bit sequences it is the same. -/
theorem scale_canon {reg : Reg Id} {canon : Prop} {f : Bytes32 → Primitive} {ctx : Id → Γ} {c t v bs} (h : Scale reg canon f ctx c t v bs) : Short v →
    ∃ p, Scale reg True f ctx c t v p ∧ p.length = bs.length ∧ (NoBits reg t → p = bs) := by
  refine Scale.rec (motive_1 := fun c t v bs _ => Short v → ∃ p, Scale reg True f ctx c t v p ∧ p.length = bs.length ∧ (NoBits reg t → p = bs))
    (motive_2 := fun c ts vs bs _ => (∀ v ∈ vs, Short v) → ∃ p, ScaleAll reg True f ctx c ts vs p ∧ p.length = bs.length ∧ ((∀ t ∈ ts, NoBits reg t) → p = bs))
    ?_ ?_ ?_ ?_ ?_ ?_ ?_ ?_ ?_ ?_ ?_ ?_ ?_ ?_ ?_ ?_ ?_ h
  · intro t b ht _; exact ⟨_, .bool ht, rfl, fun _ => rfl⟩
  · intro t c bs ht hb _; exact ⟨_, .char ht hb, rfl, fun _ => rfl⟩
  · intro t s p ht hp hl _ hs; exact ⟨_, .str ht hp hl (fun _ => (hs _ (.self _)).2 s rfl), rfl, fun _ => rfl⟩
  · intro t p k n bs ht hk hb _; exact ⟨_, .uint ht hk hb, rfl, fun _ => rfl⟩
  · intro t p k n bs ht hk hb _; exact ⟨_, .int ht hk hb, rfl, fun _ => rfl⟩
  · intro t b ht _; exact ⟨_, .u256 ht, rfl, fun _ => rfl⟩
  · intro t b ht _; exact ⟨_, .i256 ht, rfl, fun _ => rfl⟩
  · intro t u v bs ht _ ih hs
    obtain ⟨p, h1, h2, h3⟩ := ih hs
    exact ⟨p, .compact ht h1, h2, fun h => h3 (noBits_ref h ht (by simp [TypeDef.refs]))⟩
  · intro t p k n bs ht hk hn hb _; exact ⟨_, .compactUint ht hk hn hb, rfl, fun _ => rfl⟩
  · intro t u vs p bs ht hp hl _ _ ih hs
    obtain ⟨q, h1, h2, h3⟩ := ih (fun v hv => short_child hs hv)
    refine ⟨p ++ q, .sequence ht hp hl (fun _ => (hs _ (.self _)).1 _ rfl) h1, by simp [h2], fun h => ?_⟩
    rw [h3 (fun w hw => by rw [List.eq_of_mem_replicate hw]; exact noBits_ref h ht (by simp [TypeDef.refs]))]
  · intro t u m vs bs ht _ ih hs
    obtain ⟨q, h1, h2, h3⟩ := ih (fun v hv => short_child hs hv)
    refine ⟨q, .array ht h1, h2, fun h => ?_⟩
    rw [h3 (fun w hw => by rw [List.eq_of_mem_replicate hw]; exact noBits_ref h ht (by simp [TypeDef.refs]))]
  · intro c t ts vs bs ht hc _ ih hs
    obtain ⟨q, h1, h2, h3⟩ := ih (fun v hv => short_child hs hv)
    exact ⟨q, .tuple ht hc h1, h2, fun h => h3 (fun w hw => noBits_ref h ht hw)⟩
  · intro c t fs vs cs bs ht hc hall hsh ih hs
    have hl := scaleAll_length hall
    rw [List.length_map] at hl
    obtain ⟨q, h1, h2, h3⟩ := ih (fun v hv => short_child hs (by
      rw [← hasShape_vals hsh hl.symm] at hv; cases cs <;> exact hv))
    exact ⟨q, .composite ht hc h1 hsh, h2, fun h => h3 (fun w hw => noBits_ref h ht hw)⟩
  · intro t ds d vs cs bs ht hd hall hsh ih hs
    have hl := scaleAll_length hall
    rw [List.length_map] at hl
    obtain ⟨q, h1, h2, h3⟩ := ih (fun v hv => short_child hs (by
      rw [← hasShape_vals hsh hl.symm] at hv; cases cs <;> exact hv))
    refine ⟨_, .variant ht hd h1 hsh, by simp [h2], fun h => ?_⟩
    rw [h3 (fun w hw => noBits_ref h ht (by
      simp only [TypeDef.refs, List.mem_flatMap]; exact ⟨d, List.mem_of_find?_eq_some hd, hw⟩))]
  · intro t s o b p q ht hp hl hq _
    have hq' := isBits_encWords True s o b
    refine ⟨_, .bits ht hp hl hq', ?_, fun h => (h t .self s o ht).elim⟩
    have h1 := hq.1
    have h2 := hq.2.1
    obtain ⟨m, hm⟩ := hq.2.2.1
    have h1' := hq'.1
    have h2' := hq'.2.1
    obtain ⟨m', hm'⟩ := hq'.2.2.1
    have hk := wordBytes_eq s ▸ s.bytes_pos
    have : m = m' := by
      rw [hm] at h1 h2
      rw [hm'] at h1' h2'
      rcases Nat.lt_trichotomy m m' with h | h | h
      · have := Nat.mul_le_mul_left (wordBytes s) (Nat.succ_le_of_lt h)
        rw [Nat.mul_succ] at this; omega
      · exact h
      · have := Nat.mul_le_mul_left (wordBytes s) (Nat.succ_le_of_lt h)
        rw [Nat.mul_succ] at this; omega
    rw [List.length_append, List.length_append, hm, hm', this]
  · intro c _; exact ⟨[], .nil, rfl, fun _ => rfl⟩
  · intro c t ts v vs bs bs' _ _ h1 h2 hs
    obtain ⟨p, a1, a2, a3⟩ := h1 (hs v (by simp))
    obtain ⟨q, b1, b2, b3⟩ := h2 (fun w hw => hs w (by simp [hw]))
    exact ⟨p ++ q, .cons a1 b1, by simp [a2, b2], fun h => by rw [a3 (h t (by simp)), b3 (fun w hw => h w (by simp [hw]))]⟩

theorem hasShape_removeContext {fs : List (Field Id)} {vs : List (Value Γ)} {cs : Composite Γ} (h : HasShape fs vs cs) :
    HasShape fs (mapValsS (fun (s : Unit) (_ : Γ) => ((), s)) vs ()) (cs.mapContextS (fun (s : Unit) _ => ((), s)) ()) := hasShape_mapContext _ h

/-- A typed value has a canonical encoding. -/
theorem typed_scale {reg : Reg Id} {f : Bytes32 → Primitive} {c t} {v : Value Γ} (h : Typed reg c t v) :
    ∃ bs, Scale reg True f (fun _ => ()) c t v.removeContext bs := by
  refine Typed.rec (motive_1 := fun c t v _ => ∃ bs, Scale reg True f (fun _ => ()) c t v.removeContext bs)
    (motive_2 := fun c ts vs _ => ∃ bs, ScaleAll reg True f (fun _ => ()) c ts (mapValsS (fun (s : Unit) (_ : Γ) => ((), s)) vs ()) bs)
    ?_ ?_ ?_ ?_ ?_ ?_ ?_ ?_ ?_ ?_ ?_ ?_ ?_ ?_ h
  · intro t b x ht; exact ⟨_, .bool ht⟩
  · intro t c x ht
    refine ⟨_, .char ht (isLe_leBytes (Nat.lt_of_lt_of_le c.val.toNat_lt (by decide)))⟩
  · intro t s x ht hl; exact ⟨_, .str ht (isCompact_compactEnc (by omega)) (by omega) (fun _ => hl)⟩
  · intro c t p k n x ht hk hn
    cases c with
    | false => exact ⟨_, .uint ht hk (isLe_leBytes hn)⟩
    | true => exact ⟨_, .compactUint ht hk hn (isCompact_compactEnc n.lt)⟩
  · intro t p k x n ht hk h1 h2; exact ⟨_, .int ht hk (isLeInt_leBytesInt h1 h2)⟩
  · rintro t u v ht _ ⟨bs, ih⟩; exact ⟨bs, .compact ht ih⟩
  · rintro t u vs x ht hl _ ⟨bs, ih⟩
    have hlen : (mapValsS (fun (s : Unit) (_ : Γ) => ((), s)) vs ()).length = vs.length := mapValsS_length _ _ _
    refine ⟨_, .sequence ht (p := compactEnc vs.length) (bs := bs) ?_ ?_ ?_ ?_⟩
    · rw [hlen]; exact isCompact_compactEnc (by omega)
    · rw [hlen]; omega
    · rw [hlen]; exact fun _ => hl
    · rw [hlen]; exact ih
  · rintro t u n vs x ht _ ⟨bs, ih⟩; exact ⟨bs, .array ht ih⟩
  · rintro c t ts vs x ht hc _ ⟨bs, ih⟩; exact ⟨bs, .tuple ht hc ih⟩
  · rintro c t fs vs cs x ht hc _ hsh ⟨bs, ih⟩; exact ⟨bs, .composite ht hc ih (hasShape_removeContext hsh)⟩
  · rintro t ds d vs cs x ht hd _ hsh ⟨bs, ih⟩; exact ⟨_, .variant ht hd ih (hasShape_removeContext hsh)⟩
  · intro t s o b x ht hl; exact ⟨_, .bits ht (isCompact_compactEnc (by omega)) hl (isBits_encWords True s o b)⟩
  · intro c; exact ⟨[], .nil⟩
  · rintro c t ts v vs _ _ ⟨b1, h1⟩ ⟨b2, h2⟩; exact ⟨_, .cons h1 h2⟩

/-- Any canonical encoding is one without `canon`. -/
theorem scale_weaken {reg : Reg Id} {canon canon' : Prop} (hc : canon' → canon) {f : Bytes32 → Primitive} {ctx : Id → Γ} {c t v bs} (h : Scale reg canon f ctx c t v bs) :
    Scale reg canon' f ctx c t v bs := by
  refine Scale.rec (motive_1 := fun c t v bs _ => Scale reg canon' f ctx c t v bs)
    (motive_2 := fun c ts vs bs _ => ScaleAll reg canon' f ctx c ts vs bs)
    ?_ ?_ ?_ ?_ ?_ ?_ ?_ ?_ ?_ ?_ ?_ ?_ ?_ ?_ ?_ ?_ ?_ h
  · intro t b ht; exact .bool ht
  · intro t c bs ht hb; exact .char ht hb
  · intro t s p ht hp hl h; exact .str ht hp hl (fun x => h (hc x))
  · intro t p k n bs ht hk hb; exact .uint ht hk hb
  · intro t p k n bs ht hk hb; exact .int ht hk hb
  · intro t b ht; exact .u256 ht
  · intro t b ht; exact .i256 ht
  · intro t u v bs ht _ ih; exact .compact ht ih
  · intro t p k n bs ht hk hn hb; exact .compactUint ht hk hn hb
  · intro t u vs p bs ht hp hl h _ ih; exact .sequence ht hp hl (fun x => h (hc x)) ih
  · intro t u m vs bs ht _ ih; exact .array ht ih
  · intro c t ts vs bs ht hc _ ih; exact .tuple ht hc ih
  · intro c t fs vs cs bs ht hc _ hsh ih; exact .composite ht hc ih hsh
  · intro t ds d vs cs bs ht hd _ hsh ih; exact .variant ht hd ih hsh
  · intro t s o b p q ht hp hl hq; exact .bits ht hp hl ⟨hq.1, hq.2.1, hq.2.2.1, hq.2.2.2.1, fun x => hq.2.2.2.2 (hc x)⟩
  · intro c; exact .nil
  · intro c t ts v vs bs bs' _ _ h1 h2; exact .cons h1 h2

/-- What is decoded is typed. -/
theorem scale_typed {reg : Reg Id} {f : Bytes32 → Primitive} {ctx : Id → Γ} {c t v bs} (h : Scale reg True f ctx c t v bs) :
    (∀ u, Reach reg t u → reg.resolve u ≠ some (.primitive .u256) ∧ reg.resolve u ≠ some (.primitive .i256)) → Typed reg c t v := by
  have key : ∀ {t d}, (∀ u, Reach reg t u → reg.resolve u ≠ some (.primitive .u256) ∧ reg.resolve u ≠ some (.primitive .i256)) → reg.resolve t = some d →
      ∀ w ∈ d.refs, ∀ u, Reach reg w u → reg.resolve u ≠ some (.primitive .u256) ∧ reg.resolve u ≠ some (.primitive .i256) := by
    intro t d h ht w hw u hu
    refine h u ?_
    clear h
    induction hu with
    | self => exact .step .self ht hw
    | step _ h1 h2 ih => exact .step ih h1 h2
  refine Scale.rec (motive_1 := fun c t v bs _ => (∀ u, Reach reg t u → reg.resolve u ≠ some (.primitive .u256) ∧ reg.resolve u ≠ some (.primitive .i256)) → Typed reg c t v)
    (motive_2 := fun c ts vs bs _ => (∀ t ∈ ts, ∀ u, Reach reg t u → reg.resolve u ≠ some (.primitive .u256) ∧ reg.resolve u ≠ some (.primitive .i256)) → TypedAll reg c ts vs)
    ?_ ?_ ?_ ?_ ?_ ?_ ?_ ?_ ?_ ?_ ?_ ?_ ?_ ?_ ?_ ?_ ?_ h
  · intro t b ht _; exact .bool ht
  · intro t c bs ht hb _; exact .char ht
  · intro t s p ht hp hl h _; exact .str ht (h trivial)
  · intro t p k n bs ht hk hb _; exact .uint ht hk (isLe_iff.1 hb).1
  · intro t p k n bs ht hk hb _; exact .int ht hk hb.2.1 hb.2.2.1
  · intro t b ht h; exact ((h t .self).1 ht).elim
  · intro t b ht h; exact ((h t .self).2 ht).elim
  · intro t u v bs ht _ ih h; exact .compact ht (ih (key h ht _ (by simp [TypeDef.refs])))
  · intro t p k n bs ht hk hn hb _; exact .uint ht hk hn
  · intro t u vs p bs ht hp hl h _ ih hn
    exact .sequence ht (h trivial) (ih (fun w hw => by rw [List.eq_of_mem_replicate hw]; exact key hn ht _ (by simp [TypeDef.refs])))
  · intro t u m vs bs ht _ ih hn
    exact .array ht (ih (fun w hw => by rw [List.eq_of_mem_replicate hw]; exact key hn ht _ (by simp [TypeDef.refs])))
  · intro c t ts vs bs ht hc _ ih hn; exact .tuple ht hc (ih (fun w hw => key hn ht _ hw))
  · intro c t fs vs cs bs ht hc _ hsh ih hn; exact .composite ht hc (ih (fun w hw => key hn ht _ hw)) hsh
  · intro t ds d vs cs bs ht hd _ hsh ih hn
    exact .variant ht hd (ih (fun w hw => key hn ht _ (by
      simp only [TypeDef.refs, List.mem_flatMap]; exact ⟨d, List.mem_of_find?_eq_some hd, hw⟩))) hsh
  · intro t s o b p q ht hp hl hq _; exact .bits ht hl
  · intro c _; exact .nil
  · intro c t ts v vs bs bs' _ _ h1 h2 hn; exact .cons (h1 (hn _ (by simp))) (h2 (fun w hw => hn w (by simp [hw])))

theorem children_mapContext (g : Γ → Δ) (v : Value Γ) : (v.mapContext g).children = v.children.map (fun w => w.mapContext g) := by
  obtain ⟨d, x⟩ := v
  unfold Value.mapContext
  cases d with
  | composite c =>
    cases c with
    | named fs => simp [Value.mapContextS, ValueDef.mapContextS, Composite.mapContextS, Value.children, mapFieldsS_eq]
    | unnamed vs => simp [Value.mapContextS, ValueDef.mapContextS, Composite.mapContextS, Value.children, mapValsS_eq]
  | variant c =>
    obtain ⟨n, c⟩ := c
    cases c with
    | named fs => simp [Value.mapContextS, ValueDef.mapContextS, Variant.mapContextS, Composite.mapContextS, Value.children, mapFieldsS_eq]
    | unnamed vs => simp [Value.mapContextS, ValueDef.mapContextS, Variant.mapContextS, Composite.mapContextS, Value.children, mapValsS_eq]
  | primitive p => rfl
  | bitSequence p => rfl

theorem sub_mapContext (g : Γ → Δ) {v : Value Γ} {w : Value Δ} (h : Sub (v.mapContext g) w) : ∃ u, Sub v u ∧ w = u.mapContext g := by
  generalize hx : v.mapContext g = x at h
  induction h generalizing v with
  | self => exact ⟨v, .self v, hx.symm⟩
  | child hu _ ih =>
    subst hx
    rw [children_mapContext] at hu
    obtain ⟨u', hu', rfl⟩ := List.mem_map.1 hu
    obtain ⟨y, hy, hw⟩ := ih rfl
    exact ⟨y, .child hu' hy, hw⟩

theorem fields_mapContext (g : Γ → Δ) (v : Value Γ) {c : Composite Δ} (h : (v.mapContext g).fields? = some c) : ∃ d, v.fields? = some d ∧ c.len = d.len := by
  obtain ⟨d, x⟩ := v
  unfold Value.mapContext at h
  cases d with
  | composite c =>
    refine ⟨c, rfl, ?_⟩
    rw [Value.mapContextS, ValueDef.mapContextS] at h
    cases h
    cases c with
    | named fs => simp [Composite.mapContextS, Composite.len, mapFieldsS_eq]
    | unnamed vs => simp [Composite.mapContextS, Composite.len, mapValsS_eq]
  | variant c =>
    obtain ⟨n, c⟩ := c
    refine ⟨c, rfl, ?_⟩
    rw [Value.mapContextS, ValueDef.mapContextS, Variant.mapContextS] at h
    cases h
    cases c with
    | named fs => simp [Composite.mapContextS, Composite.len, mapFieldsS_eq]
    | unnamed vs => simp [Composite.mapContextS, Composite.len, mapValsS_eq]
  | primitive p => cases h
  | bitSequence p => cases h

theorem allocOk_mapContext (g : Γ → Δ) {al : Nat → Bool} {v : Value Γ} (h : AllocOk al v) : AllocOk al (v.mapContext g) := by
  intro w c hw hc
  obtain ⟨u, hu, rfl⟩ := sub_mapContext g hw
  obtain ⟨d, hd, hl⟩ := fields_mapContext g u hc
  rw [hl]; exact h u d hu hd

theorem removeContext_eq (v : Value Γ) : v.removeContext = v.mapContext (fun _ => ()) := rfl

/-! ### Types that nothing can be encoded to -/

theorem fails_children {reg : Reg Id} {cs : List (Child Id)} (hg : AppendOnlyAll cs) {t : Id} {d : TypeDef Id}
    (h : reg.resolve (findSingle reg t).1 = some d) (hd : IsSimple d)
    (hc : ∀ c ∈ cs, ∀ u, (findSingle reg u).1 = (findSingle reg t).1 → Fails (c.enc u)) : Fails (encComposite reg cs t) := by
  have hone : ∀ u, (findSingle reg u).1 = (findSingle reg t).1 → ∀ k, Fails (match cs with
      | [c] => c.enc u
      | _ => .fail k) := by
    intro u hu k
    split
    · exact hc _ (by simp) u hu
    · exact fails_fail _
  have hf : ∀ f : Field Id, (findSingle reg f.id).1 = (findSingle reg t).1 → Fails (encFieldsTo cs [f]) := by
    intro f hf
    unfold encFieldsTo
    split
    · unfold encByName
      split
      · exact fails_fail _
      · rename_i c hfind
        refine fails_seq_left (fails_mapErr (hc c ?_ _ hf))
        simpa using List.mem_of_find?_eq_some hfind
    · split
      · exact fails_fail _
      · rename_i hl
        have hl : cs.length = 1 := by simpa using (Decidable.not_not.1 hl).symm
        obtain ⟨c, rfl⟩ := List.length_eq_one_iff.1 hl
        unfold encByOrder
        exact fails_seq_left (fails_mapErr (hc c (by simp) _ hf))
  have hdo : ∀ u, (findSingle reg u).1 = (findSingle reg t).1 → Fails (doEncodeComposite reg cs u) := by
    intro u hu
    have hcomp : Fails (encCompositeAsType reg cs u) := by
      have hs : (findSingle reg (skip reg u)).1 = (findSingle reg t).1 := by rw [findSingle_skip, hu]
      unfold encCompositeAsType
      rcases simple_cases (by rw [hs]; exact h) hd with ⟨f, h1, h2⟩ | ⟨w, h1, h2⟩ | ⟨w, h1, h2⟩ | ⟨h1, h2⟩
      · rw [h1]; simp only
        split
        · exact hc _ (by simp) _ hs
        · exact hf f (by rw [h2, hs])
      · rw [h1]; simp only
        split
        · exact hc _ (by simp) _ hs
        · exact hf _ (by rw [h2, hs])
      · rw [h1]; exact hone _ hs _
      · rw [h2]
        cases d <;> first | exact hd.elim | exact hone _ hs _
    unfold doEncodeComposite
    rcases simple_cases (by rw [hu]; exact h) hd with ⟨f, h1, h2⟩ | ⟨w, h1, h2⟩ | ⟨w, h1, h2⟩ | ⟨h1, h2⟩
    · rw [h1]; exact hcomp
    · rw [h1]; exact hcomp
    · rw [h1]; simp only
      split
      · exact fails_fail _
      · rename_i hl
        obtain ⟨c, rfl⟩ := List.length_eq_one_iff.1 (Decidable.not_not.1 hl)
        unfold encItems
        exact fails_seq_left (fails_mapErr (hc c (by simp) _ (by rw [h2, hu])))
    · rw [h2]
      cases d <;> first | exact hd.elim | exact hone _ hu _
  rw [fails_iff (append_composite reg cs t)]
  intro r ho
  rcases (okay_composite_iff hg).1 ho with h1 | ⟨-, h1 | ⟨-, c', hcs, h1⟩⟩
  · exact okay_not_fails h1 (hdo t rfl)
  · exact okay_not_fails h1 (hdo _ (findSingle_idem reg t))
  · exact okay_not_fails h1 (hc c' (by simp [hcs]) _ (findSingle_idem reg t))

theorem bytes_fails {reg : Reg Id} {p : Prim} (b : Bytes32) : ∀ n t, reg.resolve (findSingle reg t).1 = some (.primitive p) → Fails (encBytesN reg b.bytes n t) := by
  intro n
  induction n with
  | zero => intro t _; exact fails_fail _
  | succ n ih =>
    intro t h
    unfold encBytesN
    rcases simple_cases h trivial with ⟨f, h1, h2⟩ | ⟨w, h1, h2⟩ | ⟨w, h1, h2⟩ | ⟨h1, h2⟩
    · rw [h1]; exact ih _ (by rw [h2, h])
    · rw [h1]; exact ih _ (by rw [h2, h])
    · rw [h1]; simp only
      rw [if_pos (by rw [b.len]; decide)]
      exact fails_fail _
    · rw [h2]; exact fails_fail _

mutual
theorem fails_256 (reg : Reg Id) (cc : Bool) (p : Prim) (hp : p = .u256 ∨ p = .i256) : ∀ (v : Value Γ) (t : Id),
    reg.resolve (findSingle reg t).1 = some (.primitive p) → Fails (v.encode reg cc t)
  | .mk d _, t, h => by rw [Value.encode]; exact fails_256_def reg cc p hp d t h
theorem fails_256_def (reg : Reg Id) (cc : Bool) (p : Prim) (hp : p = .u256 ∨ p = .i256) : ∀ (v : ValueDef Γ) (t : Id),
    reg.resolve (findSingle reg t).1 = some (.primitive p) → Fails (v.encode reg cc t)
  | .composite c, t, h => by
    rw [ValueDef.encode]
    exact fails_children (append_children reg cc c) h trivial (fun x hx u hu => fails_256_comp reg cc p hp c x hx u (by rw [hu, h]))
  | .variant (.mk n c), t, h => by
    rw [ValueDef.encode]
    unfold encVariant
    rw [h]; exact fails_fail _
  | .primitive q, t, h => by
    rw [ValueDef.encode]
    cases q with
    | bool b => unfold encPrimitive encBool; simp only; rw [h]; rcases hp with rfl | rfl <;> exact fails_fail _
    | char b => unfold encPrimitive encNum; simp only; rw [h]; rcases hp with rfl | rfl <;> exact fails_fail _
    | string b => unfold encPrimitive encStr; simp only; rw [h]; rcases hp with rfl | rfl <;> exact fails_fail _
    | u128 b => unfold encPrimitive encNum; simp only; rw [h]; rcases hp with rfl | rfl <;> exact fails_fail _
    | i128 b => unfold encPrimitive encNum; simp only; rw [h]; rcases hp with rfl | rfl <;> exact fails_fail _
    | u256 b => exact bytes_fails b _ t h
    | i256 b => exact bytes_fails b _ t h
  | .bitSequence b, t, h => by
    rw [ValueDef.encode]
    unfold encBits
    simp only
    rw [h]; exact fails_fail _
theorem fails_256_comp (reg : Reg Id) (cc : Bool) (p : Prim) (hp : p = .u256 ∨ p = .i256) : ∀ (c : Composite Γ), ∀ x ∈ c.encChildren reg cc, ∀ u,
    reg.resolve (findSingle reg u).1 = some (.primitive p) → Fails (x.enc u)
  | .named fs, x, hx, u, hu => by rw [Composite.encChildren] at hx; exact fails_256_named reg cc p hp fs x hx u hu
  | .unnamed fs, x, hx, u, hu => by rw [Composite.encChildren] at hx; exact fails_256_unnamed reg cc p hp fs x hx u hu
theorem fails_256_named (reg : Reg Id) (cc : Bool) (p : Prim) (hp : p = .u256 ∨ p = .i256) : ∀ (c : List (Str × Value Γ)), ∀ x ∈ encNamed reg cc c, ∀ u,
    reg.resolve (findSingle reg u).1 = some (.primitive p) → Fails (x.enc u)
  | [], x, hx, u, hu => by rw [encNamed] at hx; cases hx
  | (k, v) :: r, x, hx, u, hu => by
    rw [encNamed] at hx
    rcases List.mem_cons.1 hx with rfl | hx
    · exact fails_256 reg cc p hp v u hu
    · exact fails_256_named reg cc p hp r x hx u hu
theorem fails_256_unnamed (reg : Reg Id) (cc : Bool) (p : Prim) (hp : p = .u256 ∨ p = .i256) : ∀ (c : List (Value Γ)), ∀ x ∈ encUnnamed reg cc c, ∀ u,
    reg.resolve (findSingle reg u).1 = some (.primitive p) → Fails (x.enc u)
  | [], x, hx, u, hu => by rw [encUnnamed] at hx; cases hx
  | v :: r, x, hx, u, hu => by
    rw [encUnnamed] at hx
    rcases List.mem_cons.1 hx with rfl | hx
    · exact fails_256 reg cc p hp v u hu
    · exact fails_256_unnamed reg cc p hp r x hx u hu
end

end SV
