import Verif.Types.Table
import Mathlib.Logic.Relation

/-! C33: unification of variables is an equivalence with a value per class. -/

set_option linter.unusedSectionVars false

namespace Verif.Types

section
variable {Var Val : Type} [DecidableEq Var] [DecidableEq Val]

/-! ### The specification

A table is described by the classes: `rep v` is the representative of `v`, `val r` the value of the class of `r`. -/

/-- `v` has the representative `r`, `n` links away. -/
inductive Leads (m : Mapping Var Val) : Var → Var → Nat → Prop
  | root {v} : (∀ w, m.get v ≠ some (.var w)) → Leads m v v 0
  | link {v w r n} : m.get v = some (.var w) → Leads m w r n → Leads m v r (n + 1)

/-- Every chain of links ends, after at most as many links as there were insertions. -/
def Acyclic (m : Mapping Var Val) : Prop := ∀ v, ∃ r n, Leads m v r n ∧ n ≤ m.length

theorem Leads.det {m : Mapping Var Val} {v r r' : Var} {n n' : Nat} (h : Leads m v r n) (h' : Leads m v r' n') :
    r = r' ∧ n = n' := by
  induction h generalizing n' with
  | root hr =>
    cases h' with
    | root => exact ⟨rfl, rfl⟩
    | link hl => exact absurd hl (hr _)
  | link hl _ ih =>
    cases h' with
    | root hr => exact absurd hl (hr _)
    | link hl' h' =>
      rw [hl] at hl'
      cases hl'
      obtain ⟨h1, h2⟩ := ih h'
      exact ⟨h1, by rw [h2]⟩

theorem Leads.rootN {m : Mapping Var Val} {v r : Var} {n : Nat} (h : Leads m v r n) {fuel : Nat} (hf : n < fuel) :
    m.rootN fuel v = .ok r := by
  induction h generalizing fuel with
  | @root v hr =>
    obtain ⟨f, rfl⟩ : ∃ f, fuel = f + 1 := ⟨fuel - 1, by omega⟩
    unfold Mapping.rootN
    split
    · rename_i w hw; exact absurd hw (hr w)
    · rfl
  | @link v w r n hl _ ih =>
    obtain ⟨f, rfl⟩ : ∃ f, fuel = f + 1 := ⟨fuel - 1, by omega⟩
    unfold Mapping.rootN
    rw [hl]
    exact ih (by omega)

theorem Leads.root_ok {m : Mapping Var Val} (hm : Acyclic m) {v r : Var} {n : Nat} (h : Leads m v r n) : m.root v = .ok r := by
  obtain ⟨r', n', h', hn⟩ := hm v
  obtain ⟨rfl, rfl⟩ := h.det h'
  exact h.rootN (by omega)

/-- In an acyclic table every variable has a representative. -/
theorem Acyclic.root {m : Mapping Var Val} (hm : Acyclic m) (v : Var) : ∃ r n, m.root v = .ok r ∧ Leads m v r n ∧ n ≤ m.length := by
  obtain ⟨r, n, h, hn⟩ := hm v
  exact ⟨r, n, h.root_ok hm, h, hn⟩

theorem Leads.not_var {m : Mapping Var Val} {v r : Var} {n : Nat} (h : Leads m v r n) : ∀ w, m.get r ≠ some (.var w) := by
  induction h with
  | root hr => exact hr
  | link _ _ ih => exact ih

theorem Acyclic.of_root {m : Mapping Var Val} (hm : Acyclic m) {v r : Var} (h : m.root v = .ok r) : ∃ n, Leads m v r n ∧ n ≤ m.length := by
  obtain ⟨r', n, h1, h2, h3⟩ := hm.root v
  rw [h] at h1
  cases h1
  exact ⟨n, h2, h3⟩

theorem Acyclic.root_root {m : Mapping Var Val} (hm : Acyclic m) {v r : Var} (h : m.root v = .ok r) : m.root r = .ok r := by
  obtain ⟨n, h1, -⟩ := hm.of_root h
  exact (Leads.root h1.not_var).root_ok hm

theorem get_insert (m : Mapping Var Val) (k v : Var) (e : Entry Var Val) :
    (m.insert k e).get v = if v = k then some e else m.get v := rfl

theorem Acyclic.empty : Acyclic ([] : Mapping Var Val) := fun v =>
  ⟨v, 0, .root (by intro w h; cases h), Nat.le_refl _⟩

/-- Giving a value to a root keeps the links. -/
theorem Leads.set_value {m : Mapping Var Val} {k : Var} (hk : ∀ w, m.get k ≠ some (.var w)) (t : Option Val) {v r : Var} {n : Nat}
    (h : Leads m v r n) : Leads (m.insert k (.value t)) v r n := by
  induction h with
  | @root v hr =>
    refine .root fun w => ?_
    rw [get_insert]
    split
    · simp
    · exact hr w
  | @link v w r n hl _ ih =>
    refine .link (w := w) ?_ ih
    rw [get_insert, if_neg]
    · exact hl
    · rintro rfl; exact hk w hl

theorem Acyclic.set_value {m : Mapping Var Val} (hm : Acyclic m) {k : Var} (hk : ∀ w, m.get k ≠ some (.var w)) (t : Option Val) :
    Acyclic (m.insert k (.value t)) := by
  intro v
  obtain ⟨r, n, h, hn⟩ := hm v
  exact ⟨r, n, h.set_value hk t, by simp only [Mapping.insert, List.length_cons]; omega⟩

/-- Linking a root to another root. -/
theorem Leads.set_link {m : Mapping Var Val} {k r : Var} (hk : ∀ w, m.get k ≠ some (.var w)) (hr : ∀ w, m.get r ≠ some (.var w))
    (hne : k ≠ r) {v s : Var} {n : Nat} (h : Leads m v s n) :
    (s = k → Leads (m.insert k (.var r)) v r (n + 1)) ∧ (s ≠ k → Leads (m.insert k (.var r)) v s n) := by
  have h0 : Leads (m.insert k (.var r)) r r 0 := by
    refine .root fun w => ?_
    rw [get_insert, if_neg (Ne.symm hne)]
    exact hr w
  induction h with
  | @root v hv =>
    refine ⟨?_, ?_⟩
    · rintro rfl
      exact .link (by rw [get_insert, if_pos rfl]) h0
    · intro hs
      refine .root fun w => ?_
      rw [get_insert, if_neg hs]
      exact hv w
  | @link v w s n hl _ ih =>
    have hvk : v ≠ k := by rintro rfl; exact hk w hl
    have hl' : (m.insert k (.var r)).get v = some (.var w) := by rw [get_insert, if_neg hvk]; exact hl
    exact ⟨fun hs => .link hl' (ih.1 hs), fun hs => .link hl' (ih.2 hs)⟩

theorem Acyclic.set_link {m : Mapping Var Val} (hm : Acyclic m) {k r : Var} (hk : ∀ w, m.get k ≠ some (.var w))
    (hr : ∀ w, m.get r ≠ some (.var w)) (hne : k ≠ r) : Acyclic (m.insert k (.var r)) := by
  intro v
  obtain ⟨s, n, h, hn⟩ := hm v
  obtain ⟨h1, h2⟩ := h.set_link hk hr hne
  by_cases hs : s = k
  · exact ⟨r, n + 1, h1 hs, by simp only [Mapping.insert, List.length_cons]; omega⟩
  · exact ⟨s, n, h2 hs, by simp only [Mapping.insert, List.length_cons]; omega⟩

theorem value_of_root {m : Mapping Var Val} {v r : Var} (h : m.root v = .ok r) : m.value v = .ok (m.valueAt r) := by
  unfold Mapping.value; rw [h]

/-! ### Operations -/

/-- The public operations that change a table (32-69). -/
inductive TOp (Var Val : Type) where
  | unify (a b : Var)
  | bind (v : Var) (t : Val)

/-- An operation on a mapping. -/
def TOp.run (m : Mapping Var Val) : TOp Var Val → Out (Mapping Var Val)
  | .unify a b => m.unifyVarVar a b
  | .bind v t => m.unifyVarValue v t

/-- The mappings that any operations can lead to. -/
inductive Reachable : Mapping Var Val → Prop
  | empty : Reachable []
  | step {m m'} (op : TOp Var Val) : Reachable m → op.run m = .ok m' → Reachable m'

/-- What `unify_var_var` does. -/
theorem unifyVarVar_spec {m : Mapping Var Val} (hm : Acyclic m) (a b : Var) {ra rb : Var} (ha : m.root a = .ok ra) (hb : m.root b = .ok rb) :
    (ra = rb ∧ m.unifyVarVar a b = .ok m) ∨
    (ra ≠ rb ∧ ((∃ x y, m.valueAt ra = some x ∧ m.valueAt rb = some y ∧ x ≠ y ∧ m.unifyVarVar a b = .panic) ∨
      ∃ c, (m.valueAt ra = none ∨ m.valueAt rb = none ∨ m.valueAt ra = m.valueAt rb) ∧ c = (m.valueAt ra).or (m.valueAt rb) ∧
        m.unifyVarVar a b = .ok ((m.insert ra (.var rb)).insert rb (.value c)))) := by
  have h1 := value_of_root (hm.root_root ha)
  have h2 := value_of_root (hm.root_root hb)
  by_cases hr : ra = rb
  · left
    refine ⟨hr, ?_⟩
    unfold Mapping.unifyVarVar
    simp only [ha, hb, hr, if_true]
  · right
    refine ⟨hr, ?_⟩
    unfold Mapping.unifyVarVar
    simp only [ha, hb, if_neg hr, h1, h2]
    cases hx : m.valueAt ra with
    | none =>
      right
      exact ⟨_, .inl rfl, rfl, by simp [joinValues]⟩
    | some x =>
      cases hy : m.valueAt rb with
      | none =>
        right
        exact ⟨_, .inr (.inl rfl), rfl, by simp [joinValues]⟩
      | some y =>
        by_cases hxy : x = y
        · right
          subst hxy
          exact ⟨_, .inr (.inr rfl), rfl, by simp [joinValues]⟩
        · left
          exact ⟨x, y, rfl, rfl, hxy, by simp [joinValues, hxy]⟩

theorem Acyclic.unify {m m' : Mapping Var Val} (hm : Acyclic m) {a b : Var} (h : m.unifyVarVar a b = .ok m') : Acyclic m' := by
  obtain ⟨ra, na, ha, hla, -⟩ := hm.root a
  obtain ⟨rb, nb, hb, hlb, -⟩ := hm.root b
  rcases unifyVarVar_spec hm a b ha hb with ⟨-, h1⟩ | ⟨hne, ⟨_, _, _, _, _, h1⟩ | ⟨c, -, -, h1⟩⟩
  · rw [h] at h1; cases h1; exact hm
  · rw [h] at h1; cases h1
  · rw [h] at h1; cases h1
    refine (hm.set_link hla.not_var hlb.not_var hne).set_value ?_ _
    intro w
    rw [get_insert, if_neg (Ne.symm hne)]
    exact hlb.not_var w

theorem Acyclic.bind {m m' : Mapping Var Val} (hm : Acyclic m) {v : Var} {t : Val} (h : m.unifyVarValue v t = .ok m') : Acyclic m' := by
  obtain ⟨r, n, hr, hl, -⟩ := hm.root v
  unfold Mapping.unifyVarValue at h
  rw [value_of_root hr] at h
  simp only [hr] at h
  split at h
  · split at h
    · cases h; exact hm
    · cases h
  · cases h
    exact hm.set_value hl.not_var _
  · cases h

theorem Reachable.acyclic {m : Mapping Var Val} (h : Reachable m) : Acyclic m := by
  induction h with
  | empty => exact Acyclic.empty
  | step op _ ho ih =>
    cases op with
    | unify a b => exact ih.unify ho
    | bind v t => exact ih.bind ho

/-! ### C33 -/

/-- **C33 (lookups).** After any operations the lookup of a variable terminates: following the links from it leads to a
variable without a link, that is the one returned, and it is its own representative. -/
theorem C33_lookup_terminates {m : Mapping Var Val} (h : Reachable m) (v : Var) :
    ∃ r, m.root v = .ok r ∧ (∃ n, Leads m v r n) ∧ m.root r = .ok r ∧ (∃ t, m.value v = .ok t ∧ m.value r = .ok t) ∧
      ∀ fuel > m.length, m.rootN fuel v = .ok r := by
  obtain ⟨r, n, h1, h2, h3⟩ := h.acyclic.root v
  have h4 := h.acyclic.root_root h1
  exact ⟨r, h1, ⟨n, h2⟩, h4, ⟨_, value_of_root h1, value_of_root h4⟩, fun fuel hf => h2.rootN (by omega)⟩

/-- **C33 (acyclic).** No variable reaches itself by one or more links. -/
theorem C33_acyclic {m : Mapping Var Val} (h : Reachable m) (v : Var) :
    ¬ Relation.TransGen (fun a b => m.get a = some (.var b)) v v := by
  have key : ∀ a b : Var, Relation.TransGen (fun a b => m.get a = some (.var b)) a b →
      ∀ r n, Leads m a r n → ∃ k, Leads m b r k ∧ k < n := by
    intro a b hab
    induction hab with
    | single h1 =>
      intro r n hl
      cases hl with
      | root hr => exact absurd h1 (hr _)
      | link h2 h3 => rw [h1] at h2; cases h2; exact ⟨_, h3, by omega⟩
    | tail _ h1 ih =>
      intro r n hl
      obtain ⟨k, hk, hlt⟩ := ih r n hl
      cases hk with
      | root hr => exact absurd h1 (hr _)
      | link h2 h3 => rw [h1] at h2; cases h2; exact ⟨_, h3, by omega⟩
  intro hv
  obtain ⟨r, n, hl, -⟩ := h.acyclic v
  obtain ⟨k, hk, hlt⟩ := key v v hv r n hl
  have := (hl.det hk).2
  omega

/-- Unifying two variables of a table without cycles. -/
theorem unify_classes {m : Mapping Var Val} (hm : Acyclic m) (a b : Var) {ra rb : Var} (ha : m.root a = .ok ra) (hb : m.root b = .ok rb) :
    ((∃ x y, m.value a = .ok (some x) ∧ m.value b = .ok (some y) ∧ x ≠ y) ∧ m.unifyVarVar a b = .panic) ∨
    ((¬ ∃ x y, m.value a = .ok (some x) ∧ m.value b = .ok (some y) ∧ x ≠ y) ∧
      ∃ m' c, m.unifyVarVar a b = .ok m' ∧ Acyclic m' ∧
        (∃ x y, m.value a = .ok x ∧ m.value b = .ok y ∧ c = x.or y) ∧
        (∀ v, m.root v = .ok ra ∨ m.root v = .ok rb → m'.root v = .ok rb ∧ m'.value v = .ok c) ∧
        (∀ v, m.root v ≠ .ok ra → m.root v ≠ .ok rb → m'.root v = m.root v ∧ m'.value v = m.value v)) := by
  have hva := value_of_root ha
  have hvb := value_of_root hb
  obtain ⟨na, hla, -⟩ := hm.of_root ha
  obtain ⟨nb, hlb, -⟩ := hm.of_root hb
  rcases unifyVarVar_spec hm a b ha hb with ⟨hrr, h1⟩ | ⟨hne, ⟨x, y, hx, hy, hxy, h1⟩ | ⟨c, hc, hcv, h1⟩⟩
  · right
    subst hrr
    refine ⟨?_, m, m.valueAt ra, h1, hm, ⟨_, _, hva, hvb, by cases m.valueAt ra <;> rfl⟩, ?_, fun v _ _ => ⟨rfl, rfl⟩⟩
    · rintro ⟨x, y, hx, hy, hxy⟩
      rw [hva] at hx; rw [hvb] at hy
      injection hx with hx; injection hy with hy
      rw [hx] at hy
      exact hxy (Option.some.inj hy)
    · intro v hv
      have hv : m.root v = .ok ra := by rcases hv with h | h <;> exact h
      exact ⟨hv, value_of_root hv⟩
  · left
    exact ⟨⟨x, y, by rw [hva, hx], by rw [hvb, hy], hxy⟩, h1⟩
  · right
    have hm' : Acyclic ((m.insert ra (.var rb)).insert rb (.value c)) := hm.unify h1
    have hrb' : ∀ w, (m.insert ra (.var rb)).get rb ≠ some (.var w) := by
      intro w
      rw [get_insert, if_neg (Ne.symm hne)]
      exact hlb.not_var w
    refine ⟨?_, _, c, h1, hm', ⟨_, _, hva, hvb, hcv⟩, ?_, ?_⟩
    · rintro ⟨x, y, hx, hy, hxy⟩
      rw [hva] at hx; rw [hvb] at hy
      injection hx with hx; injection hy with hy
      rcases hc with hc | hc | hc
      · rw [hc] at hx; cases hx
      · rw [hc] at hy; cases hy
      · rw [hx, hy] at hc
        exact hxy (Option.some.inj hc)
    · intro v hv
      have hr : ((m.insert ra (.var rb)).insert rb (.value c)).root v = .ok rb := by
        obtain ⟨s, n, hs, -⟩ := hm v
        obtain ⟨h2, h3⟩ := hs.set_link hla.not_var hlb.not_var hne
        have hs' := hs.root_ok hm
        by_cases hsa : s = ra
        · exact ((h2 hsa).set_value hrb' _).root_ok hm'
        · have : s = rb := by
            rcases hv with hv | hv
            · rw [hs'] at hv; cases hv; exact absurd rfl hsa
            · rw [hs'] at hv; cases hv; rfl
          subst this
          exact ((h3 hsa).set_value hrb' _).root_ok hm'
      refine ⟨hr, ?_⟩
      rw [value_of_root hr]
      simp [Mapping.valueAt, get_insert]
    · intro v h2 h3
      obtain ⟨s, n, hs, -⟩ := hm v
      have hs' := hs.root_ok hm
      have hsa : s ≠ ra := by rintro rfl; exact h2 hs'
      have hsb : s ≠ rb := by rintro rfl; exact h3 hs'
      have hr := (((hs.set_link hla.not_var hlb.not_var hne).2 hsa).set_value hrb' c).root_ok hm'
      refine ⟨by rw [hr, hs'], ?_⟩
      rw [value_of_root hr, value_of_root hs']
      simp [Mapping.valueAt, get_insert, hsa, hsb]

/-- Binding a variable of a table without cycles. -/
theorem bind_classes {m : Mapping Var Val} (hm : Acyclic m) (a : Var) (t : Val) {ra : Var} (ha : m.root a = .ok ra) :
    ((∃ x, m.value a = .ok (some x) ∧ x ≠ t) ∧ m.unifyVarValue a t = .panic) ∨
    ((m.value a = .ok none ∨ m.value a = .ok (some t)) ∧
      ∃ m', m.unifyVarValue a t = .ok m' ∧ Acyclic m' ∧ (∀ v, m'.root v = m.root v) ∧
        (∀ v, m.root v = .ok ra → m'.value v = .ok (some t)) ∧
        (∀ v, m.root v ≠ .ok ra → m'.value v = m.value v)) := by
  have hva := value_of_root ha
  obtain ⟨na, hla, -⟩ := hm.of_root ha
  cases hx : m.valueAt ra with
  | none =>
    right
    have h1 : m.unifyVarValue a t = .ok (m.insert ra (.value (some t))) := by
      unfold Mapping.unifyVarValue
      simp only [hva, hx, ha]
    have hm' := hm.bind h1
    have hroot : ∀ v, (m.insert ra (.value (some t))).root v = m.root v := by
      intro v
      obtain ⟨s, n, hs, -⟩ := hm v
      rw [hs.root_ok hm, (hs.set_value hla.not_var (some t)).root_ok hm']
    refine ⟨.inl (by rw [hva, hx]), _, h1, hm', hroot, ?_, ?_⟩
    · intro v hv
      rw [value_of_root (by rw [hroot]; exact hv)]
      simp [Mapping.valueAt, get_insert]
    · intro v hv
      obtain ⟨s, n, hs, -⟩ := hm.root v
      have hsa : s ≠ ra := by rintro rfl; exact hv hs
      rw [value_of_root (by rw [hroot]; exact hs), value_of_root hs]
      simp [Mapping.valueAt, get_insert, hsa]
  | some x =>
    by_cases hxt : x = t
    · right
      subst hxt
      have h1 : m.unifyVarValue a x = .ok m := by
        unfold Mapping.unifyVarValue
        simp only [hva, hx, if_true]
      refine ⟨.inr (by rw [hva, hx]), m, h1, hm, fun _ => rfl, ?_, fun _ _ => rfl⟩
      intro v hv
      rw [value_of_root hv, hx]
    · left
      refine ⟨⟨x, by rw [hva, hx], hxt⟩, ?_⟩
      unfold Mapping.unifyVarValue
      simp only [hva, hx, if_neg hxt]

/-- **C33 (unify).** Unifying two variables either panics, exactly if both have values that differ, or merges their classes:
every variable of either class has then the representative of the second, and the value of the one that had a value; the
variables of other classes keep representative and value. -/
theorem C33_unify {m : Mapping Var Val} (h : Reachable m) (a b : Var) {ra rb : Var} (ha : m.root a = .ok ra) (hb : m.root b = .ok rb) :
    ((∃ x y, m.value a = .ok (some x) ∧ m.value b = .ok (some y) ∧ x ≠ y) ∧ m.unifyVarVar a b = .panic) ∨
    ((¬ ∃ x y, m.value a = .ok (some x) ∧ m.value b = .ok (some y) ∧ x ≠ y) ∧
      ∃ m' c, m.unifyVarVar a b = .ok m' ∧ Reachable m' ∧
        (∃ x y, m.value a = .ok x ∧ m.value b = .ok y ∧ c = x.or y) ∧
        (∀ v, m.root v = .ok ra ∨ m.root v = .ok rb → m'.root v = .ok rb ∧ m'.value v = .ok c) ∧
        (∀ v, m.root v ≠ .ok ra → m.root v ≠ .ok rb → m'.root v = m.root v ∧ m'.value v = m.value v)) := by
  rcases unify_classes h.acyclic a b ha hb with h1 | ⟨h1, m', c, h2, -, h3⟩
  · exact .inl h1
  · exact .inr ⟨h1, m', c, h2, .step (.unify a b) h h2, h3⟩

/-- **C33 (bind).** Binding a variable either panics, exactly if its class has another value, or gives the value to the
whole class and to no other class. -/
theorem C33_bind {m : Mapping Var Val} (h : Reachable m) (a : Var) (t : Val) {ra : Var} (ha : m.root a = .ok ra) :
    ((∃ x, m.value a = .ok (some x) ∧ x ≠ t) ∧ m.unifyVarValue a t = .panic) ∨
    ((m.value a = .ok none ∨ m.value a = .ok (some t)) ∧
      ∃ m', m.unifyVarValue a t = .ok m' ∧ Reachable m' ∧ (∀ v, m'.root v = m.root v) ∧
        (∀ v, m.root v = .ok ra → m'.value v = .ok (some t)) ∧
        (∀ v, m.root v ≠ .ok ra → m'.value v = m.value v)) := by
  rcases bind_classes h.acyclic a t ha with h1 | ⟨h1, m', h2, -, h3⟩
  · exact .inl h1
  · exact .inr ⟨h1, m', h2, .step (.bind a t) h h2, h3⟩

end

/-! ### Examples -/

/-- The classes `{0, 1, 2}` with the value `true` and `{3, 4}` without a value. -/
def exampleMapping : Mapping Nat Bool :=
  match ([.unify 0 1, .unify 3 4, .bind 0 true, .unify 2 0] : List (TOp Nat Bool)).foldlM (fun m op =>
    match op.run m with | .ok m' => some m' | _ => none) [] with
  | some m => m
  | none => []

example : Reachable exampleMapping ∧ exampleMapping.root 0 = .ok 1 ∧ exampleMapping.root 2 = .ok 1 ∧
    exampleMapping.value 2 = .ok (some true) ∧ exampleMapping.root 3 = .ok 4 ∧ exampleMapping.value 3 = .ok none ∧
    (exampleMapping.unifyVarVar 3 2 ≠ .panic) := by
  refine ⟨?_, by decide, by decide, by decide, by decide, by decide, by decide⟩
  exact .step (.unify 2 0) (.step (.bind 0 true) (.step (.unify 3 4) (.step (.unify 0 1) .empty rfl) rfl) rfl) rfl

end Verif.Types
