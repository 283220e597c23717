import Verif.Spec.Trace
import Verif.Proofs.Decode
/-
The tracing decoder: soundness, completeness, termination, errors.
-/
namespace SV

variable {Id Γ : Type}

abbrev TDec (Id : Type) := Path → Id → List UInt8 → Option (Out (TErr (Value Id)) (Value Id × List UInt8))

/-- `g` gives every answer that `f` gives. -/
def TExt (f g : TDec Id) : Prop := ∀ p t bs r, f p t bs = some r → g p t bs = some r

theorem trItems_ext {f g : TDec Id} (h : TExt f g) : ∀ ts path idx vals bs r, trItems f path ts idx vals bs = some r →
    trItems g path ts idx vals bs = some r := by
  intro ts
  induction ts with
  | nil => intro path idx vals bs r hr; exact hr
  | cons t ts ih =>
    intro path idx vals bs r hr
    simp only [trItems] at hr ⊢
    cases hf : f (path ++ [.index idx]) t bs with
    | none => rw [hf] at hr; cases hr
    | some o =>
      rw [h _ _ _ _ hf]; rw [hf] at hr
      cases o with
      | panic => exact hr
      | err e => exact hr
      | ok x => exact ih _ _ _ _ _ hr

theorem trNamedFields_ext {f g : TDec Id} (h : TExt f g) : ∀ fs path vals bs r, trNamedFields f path fs vals bs = some r →
    trNamedFields g path fs vals bs = some r := by
  intro ts
  induction ts with
  | nil => intro path vals bs r hr; exact hr
  | cons t ts ih =>
    intro path vals bs r hr
    simp only [trNamedFields] at hr ⊢
    cases hf : f (path ++ [.field (t.name.getD "<unnamed>".toList)]) t.id bs with
    | none => rw [hf] at hr; cases hr
    | some o =>
      rw [h _ _ _ _ hf]; rw [hf] at hr
      cases o with
      | panic => exact hr
      | err e => exact hr
      | ok x => exact ih _ _ _ _ hr

theorem trUnnamed_ext {f g : TDec Id} (al : Nat → Bool) (h : TExt f g) {path ts bs r} (hr : trUnnamed al f path ts bs = some r) :
    trUnnamed al g path ts bs = some r := by
  unfold trUnnamed at hr ⊢
  split
  · rename_i h1; rw [if_pos h1] at hr; exact hr
  · rename_i h1; rw [if_neg h1] at hr
    split
    · rename_i h2; rw [if_pos h2] at hr; exact hr
    · rename_i h2; rw [if_neg h2] at hr; exact trItems_ext h _ _ _ _ _ _ hr

theorem trGroupOf_ext {f g : TDec Id} (al : Nat → Bool) (h : TExt f g) {path fs bs r} (hr : trGroupOf al f path fs bs = some r) :
    trGroupOf al g path fs bs = some r := by
  unfold trGroupOf at hr ⊢
  split
  · rename_i h1; rw [if_pos h1] at hr; exact trUnnamed_ext al h hr
  · rename_i h1; rw [if_neg h1] at hr
    split
    · rename_i h2; rw [if_pos h2] at hr; exact hr
    · rename_i h2; rw [if_neg h2] at hr; exact trNamedFields_ext h _ _ _ _ _ hr

theorem trMkVal_ext {ty : Id} {a b : Option (Out (TErr (Composite Id)) (Composite Id × List UInt8))}
    (h : ∀ r, a = some r → b = some r) {r} (hr : trMkVal ty a = some r) : trMkVal ty b = some r := by
  cases a with
  | none => cases hr
  | some o => rw [h _ rfl]; exact hr

theorem trMkVariant_ext {path : Path} {ty : Id} {name : Str} {a b : Option (Out (TErr (Composite Id)) (Composite Id × List UInt8))}
    (h : ∀ r, a = some r → b = some r) {r} (hr : trMkVariant path ty name a = some r) : trMkVariant path ty name b = some r := by
  cases a with
  | none => cases hr
  | some o => rw [h _ rfl]; exact hr

theorem trN_succ (reg : Reg Id) (al : Nat → Bool) : ∀ n c, TExt (trN reg al n c) (trN reg al (n + 1) c) := by
  intro n
  induction n with
  | zero => intro c p t bs r h; cases h
  | succ n ih =>
    intro c p t bs r h
    rw [trN] at h ⊢
    split at h
    · exact h
    · exact h
    · exact trMkVal_ext (fun r => trUnnamed_ext al (ih _)) h
    · exact trMkVal_ext (fun r => trGroupOf_ext al (ih _)) h
    · exact trMkVariant_ext (fun r => trGroupOf_ext al (ih _)) h

theorem trN_mono (reg : Reg Id) (al : Nat → Bool) {n m : Nat} (h : n ≤ m) (c : Bool) :
    TExt (trN reg al n c) (trN reg al m c) := by
  induction h with
  | refl => intro _ _ _ _ h; exact h
  | step _ ih => intro p a b r h; exact trN_succ reg al _ _ _ _ _ _ (ih p a b r h)

theorem trLeaf_eq (ty : Id) (l : Leaf) : trLeaf ty l = leafVal .i256 id ty l := by cases l <;> rfl

/-! ### The named loop -/

theorem allNamed_iff (fs : List (Field Id)) : isNamed fs = true ↔ AllNamed fs := by
  unfold isNamed AllNamed
  rw [Bool.and_eq_true]
  simp only [Bool.not_eq_true', List.any_eq_false, decide_eq_true_eq, Option.isNone_iff_eq_none]
  rw [gt_iff_lt, List.length_pos_iff]

/-- How the `k`th part is named in paths. -/
def segAt (fs : List (Field Id)) (k : Nat) : PathSeg :=
  if isNamed fs then .field (((fs[k]?).bind (fun f => f.name)).getD "<unnamed>".toList) else .index k

/-- The composite of the values of the first parts. -/
def partialOf (fs : List (Field Id)) (vs : List (Value Id)) : Composite Id :=
  if isNamed fs then .named ((fs.map (fun f => f.name.getD [])).zip vs) else .unnamed vs

theorem partial_partialOf (fs : List (Field Id)) (vs : List (Value Id)) : Partial fs vs (partialOf fs vs) := by
  unfold partialOf
  split
  · rename_i h; exact .named ((allNamed_iff fs).1 h)
  · rename_i h; exact .unnamed (fun hc => h ((allNamed_iff fs).2 hc))

theorem segOf_segAt {fs : List (Field Id)} {k : Nat} {f : Field Id} (h : fs[k]? = some f) : SegOf fs k (segAt fs k) := by
  unfold segAt
  split
  · rename_i hn
    have hn := (allNamed_iff fs).1 hn
    have : f.name ≠ none := hn.2 f (List.mem_of_getElem? h)
    cases hf : f.name with
    | none => exact (this hf).elim
    | some n => rw [h]; simp only [Option.bind_some, hf, Option.getD_some]; exact .field hn h hf
  · rename_i hn
    exact .index (fun hc => hn ((allNamed_iff fs).2 hc))

/-- One loop for all groups: the parts `fs`, from the `k`th on, of which the values `vs` have been decoded. -/
def trParts (dec : TDec Id) (path : Path) (all : List (Field Id)) : List (Field Id) → Nat → List (Value Id) → List UInt8 →
    Option (Out (TErr (Composite Id)) (Composite Id × List UInt8))
  | [], _, vs, bs => some (.ok (partialOf all vs, bs))
  | f :: fs, k, vs, bs =>
    match dec (path ++ [segAt all k]) f.id bs with
    | none => none
    | some .panic => some .panic
    | some (.err e) => some (.err (e.withOuter (path ++ [segAt all k]) (partialOf all vs) (fun inner => partialOf all (vs ++ [inner]))))
    | some (.ok (v, r)) => trParts dec path all fs (k + 1) (vs ++ [v]) r

theorem trItems_eq (dec : TDec Id) (path : Path) (all : List (Field Id)) (hn : isNamed all = false) : ∀ fs k vs bs,
    trItems dec path (fs.map (fun f : Field Id => f.id)) k vs bs = trParts dec path all fs k vs bs := by
  intro fs
  induction fs with
  | nil => intro k vs bs; simp [trItems, trParts, partialOf, hn]
  | cons f fs ih =>
    intro k vs bs
    have hs : segAt all k = .index k := by simp [segAt, hn]
    simp only [trItems, trParts, List.map_cons, hs]
    cases dec (path ++ [.index k]) f.id bs with
    | none => rfl
    | some o => cases o with
      | panic => rfl
      | err e => simp [partialOf, hn]
      | ok x => exact ih _ _ _

theorem zip_take {α β : Type} (l : List α) (m : List β) : l.zip m = (l.take m.length).zip m := by
  induction m generalizing l with
  | nil => simp
  | cons b m ih => cases l with
    | nil => simp
    | cons a l => simp only [List.zip_cons_cons, List.length_cons, List.take_succ_cons]; rw [ih]

theorem zip_append_one {α β : Type} {l : List α} {m : List β} {a : α} (b : β) (h : l[m.length]? = some a) :
    l.zip (m ++ [b]) = l.zip m ++ [(a, b)] := by
  induction m generalizing l with
  | nil => cases l with
    | nil => simp at h
    | cons x l => simp at h; subst h; simp
  | cons y m ih => cases l with
    | nil => simp at h
    | cons x l => simp at h; simp [ih h]

theorem trNamedFields_eq (dec : TDec Id) (path : Path) (all : List (Field Id)) (hn : isNamed all = true) : ∀ fs k vs bs,
    all.drop k = fs → vs.length = k →
    trNamedFields dec path fs ((all.map (fun f => f.name.getD [])).zip vs) bs = trParts dec path all fs k vs bs := by
  intro fs
  induction fs with
  | nil => intro k vs bs hk hv; simp [trNamedFields, trParts, partialOf, hn]
  | cons f fs ih =>
    intro k vs bs hk hv
    have hf : all[k]? = some f := by
      have := congrArg List.head? hk
      simpa [List.head?_drop] using this
    have hname : f.name ≠ none := ((allNamed_iff all).1 hn).2 f (List.mem_of_getElem? hf)
    obtain ⟨n, hnm⟩ := Option.ne_none_iff_exists'.1 hname
    have hs : segAt all k = .field n := by simp [segAt, hn, hf, hnm]
    simp only [trNamedFields, trParts, hs, hnm, Option.getD_some]
    have happ : ∀ v, (all.map (fun f => f.name.getD [])).zip vs ++ [(n, v)] = (all.map (fun f => f.name.getD [])).zip (vs ++ [v]) := by
      intro v
      rw [zip_append_one (a := n)]
      rw [hv]; simp [hf, hnm]
    cases dec (path ++ [.field n]) f.id bs with
    | none => rfl
    | some o => cases o with
      | panic => rfl
      | err e => simp [partialOf, hn, happ]
      | ok x =>
        obtain ⟨v, r⟩ := x
        simp only [happ]
        refine ih (k + 1) (vs ++ [v]) r ?_ (by simp [hv])
        rw [← List.drop_drop, hk]; rfl

theorem isNamed_items (ts : List Id) : isNamed (ts.map (fun t => (⟨none, t⟩ : Field Id))) = false := by
  rw [isNamed_false]
  cases ts with
  | nil => left; rfl
  | cons t ts => right; exact ⟨⟨none, t⟩, by simp, rfl⟩

/-- `trUnnamed` and `trGroupOf` in terms of the one loop. -/
def trGroup (al : Nat → Bool) (dec : TDec Id) (path : Path) (fs : List (Field Id)) (bs : List UInt8) :
    Option (Out (TErr (Composite Id)) (Composite Id × List UInt8)) :=
  if isNamed fs = false ∧ fs.length > maxCapacity then some (.err (.fromDecode .tooManyEntries))
  else if !al fs.length then some .panic
  else trParts dec path fs fs 0 [] bs

theorem trUnnamed_eq (al : Nat → Bool) (dec : TDec Id) (path : Path) (ts : List Id) (bs : List UInt8) :
    trUnnamed al dec path ts bs = trGroup al dec path (ts.map (fun t => ⟨none, t⟩)) bs := by
  unfold trUnnamed trGroup
  rw [← trItems_eq dec path _ (isNamed_items ts)]
  simp only [isNamed_items, List.length_map, true_and, List.map_map, Function.comp_def, List.map_id']

theorem trGroupOf_eq (al : Nat → Bool) (dec : TDec Id) (path : Path) (fs : List (Field Id)) (bs : List UInt8) :
    trGroupOf al dec path fs bs = trGroup al dec path fs bs := by
  unfold trGroupOf trGroup
  by_cases hn : isNamed fs = true
  · simp only [hn, Bool.not_true, Bool.false_eq_true, if_false]
    rw [← trNamedFields_eq dec path fs hn fs 0 [] bs rfl rfl]
    simp
  · simp only [Bool.not_eq_true] at hn
    simp only [hn, Bool.not_false, if_true]
    unfold trUnnamed
    rw [← trItems_eq dec path _ hn]
    simp only [List.length_map, true_and]

/-! ### Soundness of successes -/

theorem scaleAll_append {reg : Reg Id} {canon : Prop} {i256 : Bytes32 → Primitive} {ctx : Id → Γ} {c ts ts'} {vs vs' : List (Value Γ)} {p p'}
    (h : ScaleAll reg canon i256 ctx c ts vs p) (h' : ScaleAll reg canon i256 ctx c ts' vs' p') :
    ScaleAll reg canon i256 ctx c (ts ++ ts') (vs ++ vs') (p ++ p') := by
  induction vs generalizing ts p with
  | nil => cases h; exact h'
  | cons v vs ih => cases h with
    | cons h1 h2 => rw [List.append_assoc]; exact .cons h1 (ih h2)

theorem trParts_sound {reg : Reg Id} {canon : Prop} {i256 : Bytes32 → Primitive} {ctx : Id → Id} {c : Bool} {dec : TDec Id} {path : Path} {all : List (Field Id)}
    (hd : ∀ p t bs v r, dec p t bs = some (.ok (v, r)) → ∃ q, bs = q ++ r ∧ Scale reg canon i256 ctx c t v q) :
    ∀ fs k vs bs cs r, trParts dec path all fs k vs bs = some (.ok (cs, r)) →
      ∃ q ws, bs = q ++ r ∧ ScaleAll reg canon i256 ctx c (fs.map (fun f => f.id)) ws q ∧ cs = partialOf all (vs ++ ws) := by
  intro fs
  induction fs with
  | nil => intro k vs bs cs r h; simp only [trParts] at h; cases h; exact ⟨[], [], rfl, .nil, by simp⟩
  | cons f fs ih =>
    intro k vs bs cs r h
    simp only [trParts] at h
    split at h
    · cases h
    · cases h
    · cases h
    · rename_i v r1 h1
      obtain ⟨q, rfl, hq⟩ := hd _ _ _ _ _ h1
      obtain ⟨q', ws, rfl, hw, rfl⟩ := ih _ _ _ _ _ h
      exact ⟨q ++ q', v :: ws, by simp, .cons hq hw, by simp⟩

theorem partialOf_shape {fs : List (Field Id)} {vs : List (Value Id)} {cs : Composite Id} : HasShape fs vs cs ↔ cs = partialOf fs vs := hasShape_iff

theorem trGroup_sound {reg : Reg Id} {canon : Prop} {i256 : Bytes32 → Primitive} {ctx : Id → Id} {c : Bool} {al : Nat → Bool} {dec : TDec Id} {path : Path} {fs : List (Field Id)}
    (hd : ∀ p t bs v r, dec p t bs = some (.ok (v, r)) → ∃ q, bs = q ++ r ∧ Scale reg canon i256 ctx c t v q) {bs cs r}
    (h : trGroup al dec path fs bs = some (.ok (cs, r))) :
    ∃ q ws, bs = q ++ r ∧ ScaleAll reg canon i256 ctx c (fs.map (fun f => f.id)) ws q ∧ HasShape fs ws cs := by
  unfold trGroup at h
  split at h
  · cases h
  · split at h
    · cases h
    · obtain ⟨q, ws, h1, h2, h3⟩ := trParts_sound hd _ _ _ _ _ _ h
      exact ⟨q, ws, h1, h2, partialOf_shape.2 (by simpa using h3)⟩

theorem trMkVal_ok {ty : Id} {a : Option (Out (TErr (Composite Id)) (Composite Id × List UInt8))} {v r}
    (h : trMkVal ty a = some (.ok (v, r))) : ∃ cs, v = .mk (.composite cs) ty ∧ a = some (.ok (cs, r)) := by
  unfold trMkVal at h
  split at h
  · cases h
  · cases h
  · cases h
  · cases h; exact ⟨_, rfl, rfl⟩

theorem trMkVariant_ok {path : Path} {ty : Id} {name : Str} {a : Option (Out (TErr (Composite Id)) (Composite Id × List UInt8))} {v r}
    (h : trMkVariant path ty name a = some (.ok (v, r))) : ∃ cs, v = .mk (.variant (.mk name cs)) ty ∧ a = some (.ok (cs, r)) := by
  unfold trMkVariant at h
  split at h
  · cases h
  · cases h
  · cases h
  · cases h; exact ⟨_, rfl, rfl⟩

theorem trN_sound (reg : Reg Id) (al : Nat → Bool) (n : Nat) : ∀ c path t bs v r,
    trN reg al n c path t bs = some (.ok (v, r)) → ∃ p, bs = p ++ r ∧ Scale reg False .i256 id c t v p := by
  induction n with
  | zero => intro c path t bs v r h; cases h
  | succ n ih =>
    intro c path t bs v r h
    rw [trN] at h
    split at h
    · cases h
    · rename_i ty c' l r' hv
      cases h
      exact visit_sound (by simp) hv ⟨rfl, trLeaf_eq ty l⟩
    · rename_i ty c' ids r' hv
      obtain ⟨cs, rfl, h1⟩ := trMkVal_ok h
      rw [trUnnamed_eq] at h1
      obtain ⟨p, vs, rfl, hp, hs⟩ := trGroup_sound (ih c') h1
      rw [List.map_map] at hp
      simp only [Function.comp_def, List.map_id'] at hp
      rw [partialOf_shape, partialOf, isNamed_items] at hs
      exact visit_sound (by simp) hv ⟨p, vs, rfl, hp, by rw [hs]; rfl⟩
    · rename_i ty c' fs r' hv
      obtain ⟨cs, rfl, h1⟩ := trMkVal_ok h
      rw [trGroupOf_eq] at h1
      obtain ⟨p, vs, rfl, hp, hs⟩ := trGroup_sound (ih c') h1
      exact visit_sound (by simp) hv ⟨p, vs, cs, rfl, hp, hs, rfl⟩
    · rename_i ty c' name fs r' hv
      obtain ⟨cs, rfl, h1⟩ := trMkVariant_ok h
      rw [trGroupOf_eq] at h1
      obtain ⟨p, vs, rfl, hp, hs⟩ := trGroup_sound (ih c') h1
      exact visit_sound (by simp) hv ⟨p, vs, cs, rfl, hp, hs, rfl⟩

/-! ### Termination -/

theorem trParts_terminates (reg : Reg Id) (al : Nat → Bool) (c : Bool) (L : Nat) (path : Path) (all : List (Field Id)) : ∀ fs : List (Field Id),
    (∀ f ∈ fs, ∀ path bs, bs.length ≤ L → ∃ n r, trN reg al n c path f.id bs = some r) →
    ∀ k vs bs, bs.length ≤ L → ∃ n r, trParts (trN reg al n c) path all fs k vs bs = some r := by
  intro fs
  induction fs with
  | nil => intro _ k vs bs _; exact ⟨0, _, rfl⟩
  | cons f fs ih =>
    intro h k vs bs hb
    obtain ⟨n1, r1, h1⟩ := h f (by simp) (path ++ [segAt all k]) bs hb
    cases r1 with
    | panic => exact ⟨n1, .panic, by rw [trParts, h1]⟩
    | err e => exact ⟨n1, _, by rw [trParts, h1]⟩
    | ok x =>
      obtain ⟨v, r⟩ := x
      obtain ⟨p, rfl, -⟩ := trN_sound reg al n1 _ _ _ _ _ _ h1
      obtain ⟨n2, r2, h2⟩ := ih (fun u hu => h u (List.mem_cons_of_mem _ hu)) (k + 1) (vs ++ [v]) r (by simp at hb; omega)
      refine ⟨max n1 n2, r2, ?_⟩
      have h1 := trN_mono reg al (Nat.le_max_left n1 n2) _ _ _ _ _ h1
      have hext : ∀ fs k vs bs r, trParts (trN reg al n2 c) path all fs k vs bs = some r →
          trParts (trN reg al (max n1 n2) c) path all fs k vs bs = some r := by
        intro fs
        induction fs with
        | nil => intro k vs bs r hr; exact hr
        | cons f fs ih =>
          intro k vs bs r hr
          simp only [trParts] at hr ⊢
          cases hf : trN reg al n2 c (path ++ [segAt all k]) f.id bs with
          | none => rw [hf] at hr; cases hr
          | some o =>
            rw [trN_mono reg al (Nat.le_max_right n1 n2) _ _ _ _ _ hf]; rw [hf] at hr
            cases o with
            | panic => exact hr
            | err e => exact hr
            | ok x => exact ih _ _ _ _ hr
      rw [trParts, h1]
      exact hext _ _ _ _ _ h2

theorem trGroup_terminates {reg : Reg Id} {al : Nat → Bool} {c : Bool} {path : Path} {fs : List (Field Id)} {bs : List UInt8}
    (h : ∃ n r, trParts (trN reg al n c) path fs fs 0 [] bs = some r) : ∃ n r, trGroup al (trN reg al n c) path fs bs = some r := by
  obtain ⟨n, r, h⟩ := h
  refine ⟨n, ?_⟩
  unfold trGroup
  split
  · exact ⟨_, rfl⟩
  · split
    · exact ⟨_, rfl⟩
    · exact ⟨_, h⟩

theorem trN_terminates (reg : Reg Id) (al : Nat → Bool) : ∀ L k c path t bs, bs.length ≤ L → reg.rank t ≤ k →
    ∃ n r, trN reg al n c path t bs = some r := by
  intro L
  induction L using Nat.strongRecOn with
  | ind L ihL =>
    intro k
    induction k using Nat.strongRecOn with
    | ind k ihk =>
      intro c path t bs hb hk
      cases hv : visit reg c t bs with
      | error e => exact ⟨1, .err (.fromDecode e), by rw [trN, hv]⟩
      | ok w =>
        have hch := visit_children hv
        have hit : ∀ c' fs, fs.map (fun f => f.id) = w.step.children → ∃ n r, trGroup al (trN reg al n c') path fs w.step.bytes = some r := by
          intro c' fs hfs
          refine trGroup_terminates (trParts_terminates reg al c' w.step.bytes.length path fs fs ?_ 0 [] _ (Nat.le_refl _))
          intro f hf path' bs' hb'
          have hu : f.id ∈ w.step.children := by rw [← hfs]; exact List.mem_map_of_mem (f := fun f : Field Id => f.id) hf
          rcases hch f.id hu with h | ⟨h1, h2⟩
          · exact ihL (w.step.bytes.length) (by omega) (reg.rank f.id) c' path' f.id bs' hb' (Nat.le_refl _)
          · exact ihk (reg.rank f.id) (by omega) c' path' f.id bs' (by omega) (Nat.le_refl _)
        obtain ⟨ty, c', s⟩ := w
        have mkv : ∀ {f : Nat → Option (Out (TErr (Composite Id)) (Composite Id × List UInt8))}, (∃ n r, f n = some r) → ∃ n r, trMkVal ty (f n) = some r := by
          rintro f ⟨n, r, h⟩
          refine ⟨n, ?_⟩
          rw [h]; cases r <;> exact ⟨_, rfl⟩
        cases s with
        | leaf l r => exact ⟨1, _, by rw [trN, hv]⟩
        | items ts r =>
          have h := hit c' (ts.map (fun t => ⟨none, t⟩)) (by simp [DStep.children, Function.comp_def])
          obtain ⟨n, o, h⟩ := mkv h
          exact ⟨n + 1, o, by rw [trN, hv]; simp only; rw [trUnnamed_eq]; exact h⟩
        | composite fs r =>
          obtain ⟨n, o, h⟩ := mkv (hit c' fs rfl)
          exact ⟨n + 1, o, by rw [trN, hv]; simp only; rw [trGroupOf_eq]; exact h⟩
        | variant nm fs r =>
          obtain ⟨n, o, h⟩ := hit c' fs rfl
          have : ∃ o', trMkVariant path ty nm (some o) = some o' := by cases o <;> exact ⟨_, rfl⟩
          obtain ⟨o', ho⟩ := this
          have h : trGroup al (trN reg al n c') path fs r = some o := h
          exact ⟨n + 1, o', by rw [trN, hv]; simp only; rw [trGroupOf_eq, h, ho]⟩

theorem traceDecode_eq {reg : Reg Id} {al : Nat → Bool} {t : Id} {bs : List UInt8} {r} :
    traceDecode reg al t bs = r ↔ ∃ n, trN reg al n false [] t bs = some r :=
  atLimit_eq (fun _ _ _ hnm h => trN_mono reg al hnm _ _ _ _ _ h)
    (trN_terminates reg al bs.length (reg.rank t) false [] t bs (Nat.le_refl _) (Nat.le_refl _))

end SV
