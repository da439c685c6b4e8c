import Verif.Types.Props
import Verif.Types.TableProps

/-! C35: checking types terminates without a panic if one of the two types has no type variables and no unknown parts. -/

namespace Verif.Types

/-- What holds of every inference context that comes from a new one: no cycles of links; the value of a type variable is not a
type variable; the value of an integer variable is an integer type. -/
structure Ctx.Wf (c : Ctx) : Prop where
  vars : Acyclic c.vars.mapping
  ints : Acyclic c.ints.mapping
  noVar : ∀ v t, c.vars.mapping.value v = .ok (some t) → ∀ u, t ≠ .var u
  integer : ∀ i t, c.ints.mapping.value i = .ok (some t) → ∃ k, t = .integer k

theorem Ctx.Wf.new (msl : Bool) : (Ctx.new msl).Wf where
  vars := Acyclic.empty
  ints := Acyclic.empty
  noVar := by
    intro v t h
    simp [Ctx.new, Table.new, Mapping.value, Mapping.root, Mapping.rootN, Mapping.get, Mapping.valueAt] at h
  integer := by
    intro v t h
    simp [Ctx.new, Table.new, Mapping.value, Mapping.root, Mapping.rootN, Mapping.get, Mapping.valueAt] at h

/-! ### Table operations in a well-formed context -/

section
variable {Var Val : Type} [DecidableEq Var] [DecidableEq Val]

/-- Binding a variable without value. -/
theorem bind_free {m : Mapping Var Val} (hm : Acyclic m) {v : Var} (t : Val) (hv : m.value v = .ok none) :
    ∃ m', m.unifyVarValue v t = .ok m' ∧ Acyclic m' ∧ ∀ u x, m'.value u = .ok (some x) → x = t ∨ m.value u = .ok (some x) := by
  obtain ⟨r, n, hr, hl, -⟩ := hm.root v
  have h1 : m.unifyVarValue v t = .ok (m.insert r (.value (some t))) := by
    unfold Mapping.unifyVarValue
    simp only [hv, hr]
  refine ⟨_, h1, hm.bind h1, fun u x hx => ?_⟩
  obtain ⟨s, k, hs, -⟩ := hm u
  have hs' := hs.root_ok hm
  rw [value_of_root ((hs.set_value hl.not_var (some t)).root_ok (hm.bind h1))] at hx
  rw [value_of_root hs']
  by_cases hsr : s = r
  · subst hsr
    left
    simp [Mapping.valueAt, get_insert] at hx
    exact hx.symm
  · right
    simpa [Mapping.valueAt, get_insert, hsr] using hx

/-- Unifying variables of which the first has no value. -/
theorem unify_free {m : Mapping Var Val} (hm : Acyclic m) {a : Var} (b : Var) (ha : m.value a = .ok none) :
    ∃ m', m.unifyVarVar a b = .ok m' ∧ Acyclic m' ∧ ∀ u x, m'.value u = .ok (some x) → ∃ u', m.value u' = .ok (some x) := by
  obtain ⟨ra, na, hra, hla, -⟩ := hm.root a
  obtain ⟨rb, nb, hrb, hlb, -⟩ := hm.root b
  have hva : m.valueAt ra = none := by
    rw [value_of_root hra] at ha
    exact Out.ok.inj ha
  rcases unifyVarVar_spec hm a b hra hrb with ⟨_, h1⟩ | ⟨hne, ⟨x, y, hx, -⟩ | ⟨c, -, hc, h1⟩⟩
  · exact ⟨m, h1, hm, fun u x hx => ⟨u, hx⟩⟩
  · rw [hva] at hx; cases hx
  · have hm' := hm.unify h1
    refine ⟨_, h1, hm', fun u x hx => ?_⟩
    have hrb' : ∀ w, (m.insert ra (.var rb)).get rb ≠ some (.var w) := by
      intro w
      rw [get_insert, if_neg (Ne.symm hne)]
      exact hlb.not_var w
    rw [hva, Option.none_or] at hc
    obtain ⟨s, k, hs, -⟩ := hm u
    have hs' := hs.root_ok hm
    obtain ⟨h2, h3⟩ := hs.set_link hla.not_var hlb.not_var hne
    have hb : ∀ z, (m.insert ra (.var rb) |>.insert rb (.value c)).root u = .ok z → z = rb ∨ (z = s ∧ s ≠ ra ∧ s ≠ rb) := by
      intro z hz
      by_cases hsa : s = ra
      · rw [((h2 hsa).set_value hrb' c).root_ok hm'] at hz
        cases hz; exact .inl rfl
      · rw [((h3 hsa).set_value hrb' c).root_ok hm'] at hz
        cases hz
        by_cases hsb : s = rb
        · exact .inl hsb
        · exact .inr ⟨rfl, hsa, hsb⟩
    obtain ⟨z, -, hz, -⟩ := hm'.root u
    rw [value_of_root hz] at hx
    rcases hb z hz with rfl | ⟨rfl, h4, h5⟩
    · refine ⟨b, ?_⟩
      rw [value_of_root hrb, ← hc]
      simpa [Mapping.valueAt, get_insert] using hx
    · refine ⟨u, ?_⟩
      rw [value_of_root hs']
      simpa [Mapping.valueAt, get_insert, h4, h5] using hx

end

/-- Changing only the variable table. -/
theorem Ctx.Wf.setVars {c : Ctx} (hc : c.Wf) {m : Mapping TyVar Ty} (hm : Acyclic m)
    (hv : ∀ v t, m.value v = .ok (some t) → ∀ u, t ≠ .var u) : ({ c with vars := { c.vars with mapping := m } } : Ctx).Wf :=
  ⟨hm, hc.ints, hv, hc.integer⟩

theorem Ctx.Wf.setInts {c : Ctx} (hc : c.Wf) {m : Mapping Nat Ty} (hm : Acyclic m)
    (hv : ∀ v t, m.value v = .ok (some t) → ∃ k, t = .integer k) : ({ c with ints := { c.ints with mapping := m } } : Ctx).Wf :=
  ⟨hc.vars, hm, hc.noVar, hv⟩

/-! ### Types without type variables and unknown parts -/

/-- No part of the type is a type variable or unknown. Integer variables are allowed. -/
def Known (t : Ty) : Prop := t.All fun u => (∀ v, u ≠ .var v) ∧ u ≠ .unknown

theorem Known.noVar {t : Ty} (h : Known t) (v : TyVar) : t ≠ .var v := h.self.1 v

theorem Known.infers {t : Ty} (h : Known t) (v : TyVar) : TyInfer.var v ∉ t.infers :=
  Ty.All.infers (h.mono fun _ hu => hu.1) v

theorem known_num : Known .num := .intro ⟨(by intro v h; cases h), (by intro h; cases h)⟩ (by intro u hu; simp [Ty.children] at hu)

theorem known_integer (k : IntKind) : Known (.integer k) :=
  .intro ⟨(by intro v h; cases h), (by intro h; cases h)⟩ (by intro u hu; simp [Ty.children] at hu)

theorem Known.refine {t : Ty} (h : Known t) (msl : Bool) : Known (t.refineForSpecs msl) := Ty.All.refine known_num.self h msl

theorem Known.prepare {a : Ty} (h : Known a) (msl : Bool) (e : Ty) :
    Known (prepareActual msl e a) ∧ (prepareActual msl e a).size ≤ a.size := by
  have h1 := h.refine msl
  have h2 := Ty.refineForSpecs_size a msl
  unfold prepareActual
  simp only
  split
  · rename_i inner hs
    have h3 : a.refineForSpecs msl = .tuple [inner] := by
      unfold Ty.singleElement at hs
      split at hs
      · rename_i heq; cases hs; exact heq
      · cases hs
    split
    · exact ⟨h1, h2⟩
    · rw [h3] at h1 h2
      refine ⟨Ty.All.child h1 (by simp [Ty.children]), ?_⟩
      simp [Ty.size, Ty.sizes] at h2
      omega
  · exact ⟨h1, h2⟩

theorem containsVar_known {m : Mapping TyVar Ty} {r : TyVar} {l : List TyInfer} (h : ∀ v, TyInfer.var v ∉ l) :
    containsVar m r l = .ok false := by
  induction l with
  | nil => rfl
  | cons x l ih =>
    cases x with
    | intVar i => exact ih fun v hv => h v (List.mem_cons_of_mem _ hv)
    | var v => exact absurd List.mem_cons_self (h v)

theorem unifyUnknown_known {w : World} {c : Ctx} {l : List TyInfer} (h : ∀ v, TyInfer.var v ∉ l) : unifyUnknown w c l = .ok (c, none) := by
  induction l with
  | nil => rfl
  | cons x l ih =>
    cases x with
    | intVar i => exact ih fun v hv => h v (List.mem_cons_of_mem _ hv)
    | var v => exact absurd List.mem_cons_self (h v)

/-! ### Resolving -/

/-- What the shallow resolution of a type is. -/
theorem shallow_spec {c : Ctx} (hc : c.Wf) (t : Ty) :
    ∃ t', c.shallow t = .ok t' ∧
      (∀ v, t' = .var v → c.vars.mapping.value v = .ok none) ∧
      (∀ i, t' = .intVar i → c.ints.mapping.value i = .ok none) ∧
      ((∀ v, t ≠ .var v) → t' = t ∨ ∃ k i, t = .intVar i ∧ t' = .integer k) := by
  have hint : ∀ i, ∃ o, c.ints.mapping.value i = .ok o := by
    intro i
    obtain ⟨r, n, hr, -⟩ := hc.ints.root i
    exact ⟨_, value_of_root hr⟩
  have hvar : ∀ v, ∃ o, c.vars.mapping.value v = .ok o := by
    intro i
    obtain ⟨r, n, hr, -⟩ := hc.vars.root i
    exact ⟨_, value_of_root hr⟩
  have key : ∀ i, ∃ t', (match c.ints.mapping.value i with | .ok t => Out.ok (t.getD (.intVar i)) | .panic => .panic | .stop => .stop) = .ok t' ∧
      (∀ v, t' ≠ .var v) ∧ (∀ j, t' = .intVar j → c.ints.mapping.value j = .ok none) ∧ (t' = .intVar i ∨ ∃ k, t' = .integer k) := by
    intro i
    obtain ⟨o, ho⟩ := hint i
    rw [ho]
    cases o with
    | none => exact ⟨_, rfl, (by intro v h; cases h), (by intro j h; cases h; exact ho), .inl rfl⟩
    | some x =>
      obtain ⟨k, rfl⟩ := hc.integer i x ho
      exact ⟨_, rfl, (by intro v h; cases h), (by intro j h; cases h), .inr ⟨k, rfl⟩⟩
  cases t with
  | var v =>
    unfold Ctx.shallow Ctx.resolveInfer
    simp only
    obtain ⟨o, ho⟩ := hvar v
    cases o with
    | none =>
      rw [ho]
      exact ⟨_, rfl, (by intro v h; cases h; exact ho), (by intro j h; cases h), fun h => absurd rfl (h v)⟩
    | some x =>
      rw [ho]
      by_cases hx : ∃ i, x = .intVar i
      · obtain ⟨i, rfl⟩ := hx
        obtain ⟨t', h1, h2, h3, -⟩ := key i
        exact ⟨t', h1, fun v h => absurd h (h2 v), h3, fun h => absurd rfl (h v)⟩
      · refine ⟨x, ?_, ?_, ?_, fun h => absurd rfl (h v)⟩
        · cases x <;> first | rfl | exact absurd ⟨_, rfl⟩ hx
        · intro u hu; exact absurd hu (hc.noVar v x ho u)
        · intro i hi; exact absurd ⟨i, hi⟩ hx
  | intVar i =>
    unfold Ctx.shallow Ctx.resolveInfer
    simp only
    obtain ⟨t', h1, h2, h3, h4⟩ := key i
    refine ⟨t', h1, fun v h => absurd h (h2 v), h3, fun _ => ?_⟩
    rcases h4 with rfl | ⟨k, rfl⟩
    · exact .inl rfl
    · exact .inr ⟨k, i, rfl, rfl⟩
  | _ => exact ⟨_, rfl, (by intro v h; cases h), (by intro j h; cases h), fun _ => .inl rfl⟩

/-! ### Unifying -/

theorem unifyTyVar_known (w : World) {c : Ctx} (hc : c.Wf) {v : TyVar} (hv : c.vars.mapping.value v = .ok none) {t : Ty} (ht : Known t) :
    ∃ c' r, unifyTyVar w c v t = .ok (c', r) ∧ c'.Wf ∧
      ∀ u x, c'.vars.mapping.value u = .ok (some x) → x = t ∨ c.vars.mapping.value u = .ok (some x) := by
  unfold unifyTyVar
  simp only
  split
  · exact absurd rfl (ht.noVar _)
  · split
    · exact ⟨_, _, rfl, hc, fun u x hx => .inr hx⟩
    · obtain ⟨r, n, hr, hl, -⟩ := hc.vars.root v
      simp only [hr, containsVar_known ht.infers]
      have hvr : c.vars.mapping.value r = .ok none := by
        rw [value_of_root (hc.vars.root_root hr), ← value_of_root hr]; exact hv
      obtain ⟨m', h1, h2, h3⟩ := bind_free hc.vars t hvr
      rw [h1]
      refine ⟨_, _, rfl, hc.setVars h2 ?_, h3⟩
      intro u x hx z
      rcases h3 u x hx with rfl | h4
      · exact ht.noVar z
      · exact hc.noVar u x h4 z

theorem unifyIntVar_wf {c : Ctx} (hc : c.Wf) {i : Nat} (hi : c.ints.mapping.value i = .ok none) (t : Ty) :
    ∃ c' r, unifyIntVar c i t = .ok (c', r) ∧ c'.Wf ∧ c'.vars = c.vars := by
  unfold unifyIntVar
  split
  · rename_i j
    obtain ⟨m', h1, h2, h3⟩ := unify_free hc.ints j hi
    rw [h1]
    refine ⟨_, _, rfl, hc.setInts h2 ?_, rfl⟩
    intro u x hx
    obtain ⟨u', hu'⟩ := h3 u x hx
    exact hc.integer u' x hu'
  · rename_i k
    obtain ⟨m', h1, h2, h3⟩ := bind_free hc.ints (.integer k) hi
    rw [h1]
    refine ⟨_, _, rfl, hc.setInts h2 ?_, rfl⟩
    intro u x hx
    rcases h3 u x hx with rfl | h4
    · exact ⟨k, rfl⟩
    · exact hc.integer u x h4
  · exact ⟨_, _, rfl, hc, rfl⟩
  · exact ⟨_, _, rfl, hc, rfl⟩

/-! ### Combining -/

/-- One of the two types is known, and no larger than the bound. If it is the expected one, no struct wraps a lambda. -/
def OneKnown (w : World) (n : Nat) (e a : Ty) : Prop :=
  (Known a ∧ a.size ≤ n) ∨ (Known e ∧ e.size ≤ n ∧ ∀ l m, w.wrapped l m = none)

theorem combinePairs_ok {f : Ctx → Ty → Ty → Combined} {P : Ctx → Prop} {as bs : List Ty}
    (hf : ∀ p ∈ as.zip bs, ∀ c, P c → ∃ c' r, f c p.1 p.2 = .ok (c', r) ∧ P c') {c : Ctx} (hc : P c) (res : Option CombineError) :
    ∃ c' r, combinePairs f c res as bs = .ok (c', r) ∧ P c' := by
  induction as generalizing bs c res with
  | nil => exact ⟨_, _, by unfold combinePairs; rfl, hc⟩
  | cons a as ih =>
    cases bs with
    | nil => exact ⟨_, _, by unfold combinePairs; rfl, hc⟩
    | cons b bs =>
      obtain ⟨c1, r1, h1, h2⟩ := hf (a, b) (by simp) c hc
      unfold combinePairs
      simp only [h1]
      exact ih (fun p hp => hf p (by simp [hp])) h2 _

theorem mem_zip_sizes {as bs : List Ty} {p : Ty × Ty} (h : p ∈ as.zip bs) : p.1 ∈ as ∧ p.2 ∈ bs :=
  ⟨(List.of_mem_zip h).1, (List.of_mem_zip h).2⟩

theorem Known.unwrap {t : Ty} (h : Known t) : Known t.unwrapAllRefs := Ty.All.unwrapAllRefs h

theorem combineCallables_ok {f : Ctx → Ty → Ty → Combined} {P : Ctx → Prop} {ps ps' : List Ty} {r r' : Ty}
    (hf : ∀ p ∈ ps.zip ps', ∀ c, P c → ∃ c' res, f c p.1 p.2 = .ok (c', res) ∧ P c')
    (hr : ∀ c, P c → ∃ c' res, f c r.unwrapAllRefs r'.unwrapAllRefs = .ok (c', res) ∧ P c') {c : Ctx} (hc : P c) :
    ∃ c' res, combineCallables f c ps r ps' r' = .ok (c', res) ∧ P c' := by
  obtain ⟨c1, r1, h1, h2⟩ := combinePairs_ok hf hc none
  unfold combineCallables
  rw [h1]
  cases r1 with
  | none => exact hr c1 h2
  | some e => exact ⟨_, _, rfl, h2⟩

theorem combineNoVars_ok {w : World} {f : Ctx → Ty → Ty → Combined} {P : Ctx → Prop} {n : Nat}
    (hf : ∀ c e a, P c → OneKnown w n e a → ∃ c' r, f c e a = .ok (c', r) ∧ P c') {c : Ctx} (hc : P c) {e a : Ty}
    (he : ∀ v, e ≠ .var v) (ha : ∀ v, a ≠ .var v) (h : OneKnown w (n + 1) e a) :
    ∃ c' r, combineNoVars w f c e a = .ok (c', r) ∧ P c' := by
  -- A pair of components, the second smaller than `a` and the first smaller than `e`.
  have sub : ∀ x y, (x ∈ e.children) → (y ∈ a.children) → ∀ c, P c → ∃ c' r, f c x y = .ok (c', r) ∧ P c' := by
    intro x y hx hy c hc
    refine hf c x y hc ?_
    rcases h with ⟨h1, h2⟩ | ⟨h1, h2, h3⟩
    · exact .inl ⟨Ty.All.child h1 hy, by have := Ty.size_children hy; omega⟩
    · exact .inr ⟨Ty.All.child h1 hx, by have := Ty.size_children hx; omega, h3⟩
  unfold combineNoVars
  split
  · rename_i hu
    have hl : ∀ v, TyInfer.var v ∉ e.infers ++ a.infers := by
      intro v hv
      rcases h with ⟨h1, -⟩ | ⟨h1, -, -⟩
      · rcases hu with rfl | rfl
        · rcases List.mem_append.1 hv with h | h
          · simp [Ty.infers] at h
          · exact h1.infers v h
        · exact h1.self.2 rfl
      · rcases hu with rfl | rfl
        · exact h1.self.2 rfl
        · rcases List.mem_append.1 hv with h | h
          · exact h1.infers v h
          · simp [Ty.infers] at h
    rw [unifyUnknown_known hl]
    exact ⟨_, _, rfl, hc⟩
  · split
    · exact ⟨_, _, rfl, hc⟩
    · split
      · exact ⟨_, _, rfl, hc⟩
      · split
        · split <;> exact ⟨_, _, rfl, hc⟩
        · exact sub _ _ (by simp [Ty.children]) (by simp [Ty.children]) c hc
        · exact sub _ _ (by simp [Ty.children]) (by simp [Ty.children]) c hc
        · exact sub _ _ (by simp [Ty.children]) (by simp [Ty.children]) c hc
        · exact sub _ _ (by simp [Ty.children]) (by simp [Ty.children]) c hc
        · split
          · exact sub _ _ (by simp [Ty.children]) (by simp [Ty.children]) c hc
          · obtain ⟨c1, r1, h1, h2⟩ := sub _ _ (List.mem_singleton.2 rfl) (List.mem_singleton.2 rfl) c hc
            rw [h1]
            exact ⟨_, _, rfl, h2⟩
        · split
          · rename_i hw
            rcases h with ⟨h1, h2⟩ | ⟨-, -, h3⟩
            · refine combineCallables_ok ?_ ?_ hc
              · intro p hp c hc
                have := (mem_zip_sizes hp).2
                refine hf c _ _ hc (.inl ⟨Ty.All.child h1 (by simp [Ty.children, this]), ?_⟩)
                have := Ty.size_le_of_mem this
                simp only [Ty.size] at h2
                omega
              · intro c hc
                refine hf c _ _ hc (.inl ⟨Known.unwrap (Ty.All.child h1 (by simp [Ty.children])), ?_⟩)
                rename_i ret _ _ _ _ _ _ _ _ _ _
                have := ret.unwrapAllRefs_size
                simp only [Ty.size] at h2
                omega
            · rw [h3] at hw; cases hw
          · exact ⟨_, _, rfl, hc⟩
        · refine combineCallables_ok ?_ ?_ hc
          · intro p hp c hc
            obtain ⟨q1, q2⟩ := mem_zip_sizes hp
            exact sub _ _ (by simp [Ty.children, q1]) (by simp [Ty.children, q2]) c hc
          · intro c hc
            refine hf c _ _ hc ?_
            rename_i r1 _ _ _ _ _ r2 _ _ _ _ _ _ _
            rcases h with ⟨h1, h2⟩ | ⟨h1, h2, h3⟩
            · refine .inl ⟨Known.unwrap (Ty.All.child h1 (by simp [Ty.children])), ?_⟩
              have := r2.unwrapAllRefs_size
              simp only [Ty.size] at h2
              omega
            · refine .inr ⟨Known.unwrap (Ty.All.child h1 (by simp [Ty.children])), ?_, h3⟩
              have := r1.unwrapAllRefs_size
              simp only [Ty.size] at h2
              omega
        · split
          · exact ⟨_, _, rfl, hc⟩
          · refine combinePairs_ok ?_ hc none
            intro p hp c hc
            obtain ⟨q1, q2⟩ := mem_zip_sizes hp
            exact sub _ _ (by simp [Ty.children, q1]) (by simp [Ty.children, q2]) c hc
        · split
          · exact ⟨_, _, rfl, hc⟩
          · refine combinePairs_ok ?_ hc none
            intro p hp c hc
            obtain ⟨q1, q2⟩ := mem_zip_sizes hp
            exact sub _ _ (by simp [Ty.children, q1]) (by simp [Ty.children, q2]) c hc
        · exact ⟨_, _, rfl, hc⟩

/-- The values of the type variables do not refer back: there is a measure which is smaller for the variables in the value of a
variable than for the variable. -/
def Ctx.Tame (c : Ctx) : Prop := ∃ rank : TyVar → Nat, ∀ v t, c.vars.mapping.value v = .ok (some t) → ∀ u, TyInfer.var u ∈ t.infers → rank u < rank v

theorem combine_ok {w : World} {n : Nat} {c : Ctx} {tame : Prop} (hc : c.Wf ∧ (tame → c.Tame)) {e a : Ty} (h : OneKnown w n e a) {fuel : Nat} (hf : n ≤ fuel) :
    ∃ c' r, combine w fuel c e a = .ok (c', r) ∧ c'.Wf ∧ (tame → c'.Tame) := by
  induction n generalizing c e a fuel with
  | zero =>
    rcases h with ⟨-, h2⟩ | ⟨-, h2, -⟩
    · have := a.size_pos; omega
    · have := e.size_pos; omega
  | succ n ih =>
    obtain ⟨f, rfl⟩ : ∃ f, fuel = f + 1 := ⟨fuel - 1, by omega⟩
    unfold combine
    simp only
    obtain ⟨e', h1, h2, h3, h4⟩ := shallow_spec hc.1 (e.refineForSpecs c.msl)
    obtain ⟨a', g1, g2, g3, g4⟩ := shallow_spec hc.1 (prepareActual c.msl (e.refineForSpecs c.msl) a)
    rw [h1, g1]
    simp only
    have hk : OneKnown w (n + 1) e' a' := by
      rcases h with ⟨k1, k2⟩ | ⟨k1, k2, k3⟩
      · obtain ⟨p1, p2⟩ := k1.prepare c.msl (e.refineForSpecs c.msl)
        rcases g4 p1.noVar with rfl | ⟨k, i, -, rfl⟩
        · exact .inl ⟨p1, by omega⟩
        · exact .inl ⟨known_integer k, by simp [Ty.size]⟩
      · have p1 := k1.refine c.msl
        have p2 := Ty.refineForSpecs_size e c.msl
        rcases h4 p1.noVar with rfl | ⟨k, i, -, rfl⟩
        · exact .inr ⟨p1, by omega, k3⟩
        · exact .inr ⟨known_integer k, by simp [Ty.size], k3⟩
    have fl : ∀ {c' : Ctx} {t : Ty}, Known t →
        (∀ u x, c'.vars.mapping.value u = .ok (some x) → x = t ∨ c.vars.mapping.value u = .ok (some x)) → (tame → c'.Tame) := by
      intro c' t ht hv hfl
      obtain ⟨rank, hrank⟩ := hc.2 hfl
      refine ⟨rank, fun u x hx y hy => ?_⟩
      rcases hv u x hx with rfl | h5
      · exact absurd hy (ht.infers y)
      · exact hrank u x h5 y hy
    unfold combineDispatch
    split
    · rename_i v
      rcases hk with ⟨k1, -⟩ | ⟨k1, -, -⟩
      · obtain ⟨c', r, q1, q2, q3⟩ := unifyTyVar_known w hc.1 (h2 v rfl) k1
        exact ⟨c', r, q1, q2, fl k1 q3⟩
      · exact absurd rfl (k1.noVar v)
    · rename_i v hne
      rcases hk with ⟨k1, -⟩ | ⟨k1, -, -⟩
      · exact absurd rfl (k1.noVar v)
      · obtain ⟨c', r, q1, q2, q3⟩ := unifyTyVar_known w hc.1 (g2 v rfl) k1
        exact ⟨c', r, q1, q2, fl k1 q3⟩
    · obtain ⟨c', r, q1, q2, q3⟩ := unifyIntVar_wf hc.1 (h3 _ rfl) a'
      exact ⟨c', r, q1, q2, fun hfl => by unfold Ctx.Tame; rw [q3]; exact hc.2 hfl⟩
    · obtain ⟨c', r, q1, q2, q3⟩ := unifyIntVar_wf hc.1 (g3 _ rfl) e'
      exact ⟨c', r, q1, q2, fun hfl => by unfold Ctx.Tame; rw [q3]; exact hc.2 hfl⟩
    · exact combineNoVars_ok (P := fun c => c.Wf ∧ (tame → c.Tame)) (fun c e a hc h => ih hc h (by omega)) hc
        (by assumption) (by assumption) hk

end Verif.Types
