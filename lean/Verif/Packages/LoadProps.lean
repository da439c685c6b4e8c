import Verif.Packages.Props

/-! Property theorems C23 and C24, and C22 for whole workspaces. -/

set_option linter.unusedSectionVars false

namespace Verif.Packages

variable {P R : Type} [DecidableEq P]

/-! ### Specification -/

/-- The kind of a package reached on a path with or without a git dependency. -/
def kindOf (g : Bool) : Kind := if g then .git else .localPkg

/-- What a workspace member loads: itself, and if its dependencies are resolved, everything reachable. -/
def Loads (fs : Fs P R) (m : Member P) (p : P) : Prop :=
  p = m.path ∨ (m.resolve = true ∧ Relation.ReflTransGen (FsEdge fs) m.path p)

/-- The dependencies of a manifest that are found on disk, in order. -/
def foundDeps (fs : Fs P R) (p : P) (g : Bool) (t : Toml) : List (P × Kind) :=
  t.deps.filterMap fun d => ((fs.depRoot p d).bind fs.findToml).map fun q => (q, kindOf (g || d.git))

/-- The dependencies whose folder has no manifest, in order. -/
def missingDeps (fs : Fs P R) (p : P) (t : Toml) : List String :=
  t.deps.filterMap fun d =>
    match fs.depRoot p d with
    | some r => if fs.findToml r = none then some d.name else none
    | none => none

/-- What is recorded for a manifest: an error if it cannot be read. -/
def expected (fs : Fs P R) (resolve g : Bool) (p : P) : Option (Entry P) :=
  (fs.read p).map fun t =>
    if resolve then ⟨t.name, kindOf g, foundDeps fs p g t, true, missingDeps fs p t⟩
    else ⟨t.name, kindOf g, [], false, []⟩

/-! ### One member -/

theorem declaredDeps_spec (fs : Fs P R) (p : P) (g : Bool) (n : Option String) (ds : List Dep) :
    declaredDeps fs p (kindOf g) ds = (foundDeps fs p g ⟨n, ds⟩, missingDeps fs p ⟨n, ds⟩) := by
  induction ds with
  | nil => rfl
  | cons d ds ih =>
    have hk : depKind (kindOf g) d = kindOf (g || d.git) := by
      unfold depKind kindOf
      cases g <;> cases d.git <;> rfl
    unfold declaredDeps
    rw [ih]
    simp only [foundDeps, missingDeps]
    cases h1 : fs.depRoot p d with
    | none => simp [h1]
    | some r =>
      cases h2 : fs.findToml r with
      | none => simp [h1, h2]
      | some q => simp [h1, h2, hk]

theorem visit_spec (fs : Fs P R) (p : P) (g b : Bool) :
    (visit fs ⟨p, kindOf g, b⟩).1 = expected fs b g p ∧
    ∀ i ∈ (visit fs ⟨p, kindOf g, b⟩).2, ∃ t d r, fs.read p = some t ∧ d ∈ t.deps ∧
      fs.depRoot p d = some r ∧ fs.findToml r = some i.path ∧ i.kind = kindOf (g || d.git) ∧
      i.resolve = true ∧ b = true := by
  unfold visit expected
  cases hr : fs.read p with
  | none => simp
  | some t =>
    obtain ⟨n, ds⟩ := t
    cases b with
    | false => simp
    | true =>
      simp only [if_true]
      rw [declaredDeps_spec fs p g n ds]
      refine ⟨rfl, ?_⟩
      intro i hi
      simp only [List.mem_map] at hi
      obtain ⟨x, hx, rfl⟩ := hi
      simp only [foundDeps, List.mem_filterMap] at hx
      obtain ⟨d, hd, he⟩ := hx
      cases h1 : fs.depRoot p d with
      | none => simp [h1] at he
      | some r =>
        cases h2 : fs.findToml r with
        | none => simp [h1, h2] at he
        | some q =>
          simp only [h1, h2, Option.bind_some, Option.map_some, Option.some.injEq] at he
          subst he
          exact ⟨⟨n, ds⟩, d, r, rfl, hd, h1, h2, rfl, rfl, trivial⟩

/-- Every dependency on disk is put in the queue. -/
theorem visit_complete (fs : Fs P R) (p : P) (g : Bool) (q : P) (h : FsEdge fs p q) :
    ∃ i ∈ (visit fs ⟨p, kindOf g, true⟩).2, i.path = q := by
  obtain ⟨t, d, r, h1, h2, h3, h4⟩ := h
  unfold visit
  rw [h1]
  simp only [if_true]
  obtain ⟨n, ds⟩ := t
  rw [declaredDeps_spec fs p g n ds]
  refine ⟨⟨q, kindOf (g || d.git), true⟩, ?_, rfl⟩
  simp only [List.mem_map]
  refine ⟨(q, kindOf (g || d.git)), ?_, rfl⟩
  simp only [foundDeps, List.mem_filterMap]
  exact ⟨d, h2, by simp [h3, h4]⟩

theorem visit_length (fs : Fs P R) (p : P) (g b : Bool) :
    (visit fs ⟨p, kindOf g, b⟩).2.length ≤ (fs.read p).elim 0 (fun t => t.deps.length) := by
  unfold visit
  cases hr : fs.read p with
  | none => simp
  | some t =>
    cases b with
    | false => simp
    | true =>
      simp only [if_true, Option.elim_some]
      obtain ⟨n, ds⟩ := t
      rw [declaredDeps_spec fs p g n ds]
      simp only [List.length_map, foundDeps]
      exact List.length_filterMap_le _ _

/-- The invariant of `collectLoop`. -/
structure LoadInv (fs : Fs P R) (m : Member P) (queue : List (Item P)) (res : Map P) : Prop where
  nodup : (keys res).Nodup
  entries : ∀ p v, (p, v) ∈ res → Loads fs m p ∧ ∃ g, Path fs m.path g p ∧ v = expected fs m.resolve g p
  pending : ∀ i ∈ queue, Loads fs m i.path ∧ i.resolve = m.resolve ∧
    ∃ g, Path fs m.path g i.path ∧ i.kind = kindOf g
  closed : m.resolve = true → ∀ p ∈ keys res, ∀ q, FsEdge fs p q → q ∈ keys res ∨ q ∈ queue.map (·.path)
  root : m.path ∈ keys res ∨ m.path ∈ queue.map (·.path)

/-- The measure. -/
def loadMeasure (fs : Fs P R) (univ : List P) (queue : List (Item P)) (res : Map P) : Nat :=
  queue.length + weight (fun p => (fs.read p).elim 0 (fun t => t.deps.length))
    (fun p => decide (p ∈ keys res)) univ

theorem loads_step {fs : Fs P R} {m : Member P} {p q : P} (h : Loads fs m p) (hm : m.resolve = true)
    (he : FsEdge fs p q) : Loads fs m q := by
  rcases h with rfl | ⟨-, h⟩
  · exact Or.inr ⟨hm, .single he⟩
  · exact Or.inr ⟨hm, h.tail he⟩

theorem loadInv_skip {fs : Fs P R} {m : Member P} {i : Item P} {queue : List (Item P)} {res : Map P}
    (h : LoadInv fs m (i :: queue) res) (hi : i.path ∈ keys res) : LoadInv fs m queue res := by
  refine ⟨h.nodup, h.entries, fun x hx => h.pending x (List.mem_cons_of_mem _ hx), ?_, ?_⟩
  · intro hm p hp q he
    rcases h.closed hm p hp q he with h1 | h1
    · exact Or.inl h1
    · rw [List.map_cons, List.mem_cons] at h1
      rcases h1 with rfl | h1
      · exact Or.inl hi
      · exact Or.inr h1
  · rcases h.root with h1 | h1
    · exact Or.inl h1
    · rw [List.map_cons, List.mem_cons] at h1
      rcases h1 with h1 | h1
      · exact Or.inl (h1 ▸ hi)
      · exact Or.inr h1

theorem loadInv_visit {fs : Fs P R} {m : Member P} {i : Item P} {queue : List (Item P)} {res : Map P}
    (h : LoadInv fs m (i :: queue) res) (hi : i.path ∉ keys res) :
    LoadInv fs m (queue ++ (visit fs i).2) (insert res i.path (visit fs i).1) := by
  obtain ⟨hl, hr, g, hp, hk⟩ := h.pending i (List.mem_cons_self ..)
  obtain ⟨ip, ik, ir⟩ := i
  simp only at hl hr hp hk hi ⊢
  subst hr hk
  obtain ⟨v1, v2⟩ := visit_spec fs ip g m.resolve
  have hmem : ∀ p v, (p, v) ∈ insert res ip (visit fs ⟨ip, kindOf g, m.resolve⟩).1 →
      (p, v) ∈ res ∨ (p = ip ∧ v = expected fs m.resolve g ip) := by
    intro p v hpv
    unfold insert at hpv
    rw [List.mem_append, List.mem_filter, List.mem_singleton] at hpv
    rcases hpv with ⟨hpv, -⟩ | hpv
    · exact Or.inl hpv
    · cases hpv
      exact Or.inr ⟨rfl, v1⟩
  refine ⟨nodup_insert h.nodup _ _, ?_, ?_, ?_, ?_⟩
  · intro p v hpv
    rcases hmem p v hpv with h1 | ⟨rfl, rfl⟩
    · exact h.entries p v h1
    · exact ⟨hl, g, hp, rfl⟩
  · intro x hx
    rcases List.mem_append.1 hx with hx | hx
    · exact h.pending x (List.mem_cons_of_mem _ hx)
    · obtain ⟨t, d, r, e1, e2, e3, e4, e5, e6, e7⟩ := v2 x hx
      exact ⟨loads_step hl e7 ⟨t, d, r, e1, e2, e3, e4⟩, by rw [e6, e7], g || d.git,
        Path.step hp e1 e2 e3 e4, e5⟩
  · intro hm p hpk q he
    rw [mem_keys_insert, List.map_append, List.mem_append]
    rw [mem_keys_insert] at hpk
    rcases hpk with rfl | hpk
    · obtain ⟨x, hx1, hx2⟩ := visit_complete fs p g q he
      rw [hm]
      exact Or.inr (Or.inr (List.mem_map.2 ⟨x, hx1, hx2⟩))
    · rcases h.closed hm p hpk q he with h1 | h1
      · exact Or.inl (Or.inr h1)
      · rw [List.map_cons, List.mem_cons] at h1
        rcases h1 with h1 | h1
        · exact Or.inl (Or.inl h1)
        · exact Or.inr (Or.inl h1)
  · rw [mem_keys_insert, List.map_append, List.mem_append]
    rcases h.root with h1 | h1
    · exact Or.inl (Or.inr h1)
    · rw [List.map_cons, List.mem_cons] at h1
      rcases h1 with h1 | h1
      · exact Or.inl (Or.inl h1)
      · exact Or.inr (Or.inl h1)

theorem collectLoop_spec {fs : Fs P R} {univ : List P} (hu : Finite fs univ) {m : Member P} :
    ∀ (fuel : Nat) (queue : List (Item P)) (res : Map P), LoadInv fs m queue res →
      loadMeasure fs univ queue res ≤ fuel →
      ∃ res', collectLoop fs fuel queue res = some res' ∧ LoadInv fs m [] res' := by
  intro fuel
  induction fuel with
  | zero =>
    intro queue res h hf
    cases queue with
    | nil => exact ⟨res, rfl, h⟩
    | cons i queue => simp [loadMeasure] at hf
  | succ fuel ih =>
    intro queue res h hf
    cases queue with
    | nil => exact ⟨res, by simp [collectLoop], h⟩
    | cons i queue =>
      unfold collectLoop
      by_cases hi : i.path ∈ keys res
      · rw [if_pos ((get?_isSome _ _).2 hi)]
        refine ih queue res (loadInv_skip h hi) ?_
        simp only [loadMeasure, List.length_cons] at hf ⊢
        omega
      · rw [if_neg (fun hx => hi ((get?_isSome _ _).1 hx))]
        refine ih _ _ (loadInv_visit h hi) ?_
        obtain ⟨-, hr, g, -, hk⟩ := h.pending i (List.mem_cons_self ..)
        obtain ⟨ip, ik, ir⟩ := i
        simp only at hk hi ⊢
        subst hk
        have hlen := visit_length fs ip g ir
        change loadMeasure fs univ (queue ++ (visit fs ⟨ip, kindOf g, ir⟩).2)
          (insert res ip (visit fs ⟨ip, kindOf g, ir⟩).1) ≤ fuel
        generalize visit fs ⟨ip, kindOf g, ir⟩ = vis at hlen ⊢
        simp only [loadMeasure, List.length_cons, List.length_append] at hf ⊢
        have hm : ∀ p, decide (p ∈ keys res) = true →
            decide (p ∈ keys (insert res ip vis.1)) = true := by
          intro p hp
          simp only [decide_eq_true_eq] at hp ⊢
          exact (mem_keys_insert _ _ _ _).2 (Or.inr hp)
        cases hread : fs.read ip with
        | none =>
          rw [hread] at hlen
          simp only [Option.elim_none] at hlen
          have := weight_mono (fun p => (fs.read p).elim 0 (fun t => t.deps.length)) _ _ hm univ
          omega
        | some t =>
          rw [hread] at hlen
          simp only [Option.elim_some] at hlen
          have := weight_add (fun p => (fs.read p).elim 0 (fun t => t.deps.length)) _ _ hm univ ip
            (hu ip (by rw [hread]; simp)) (by simp [hi]) (by simp [mem_keys_insert])
          simp only [hread, Option.elim_some] at this
          omega

theorem collectLoop_mono {fs : Fs P R} : ∀ (f : Nat) (queue : List (Item P)) (res r : Map P),
    collectLoop fs f queue res = some r → ∀ g ≥ f, collectLoop fs g queue res = some r := by
  intro f
  induction f with
  | zero =>
    intro queue res r h g _
    cases queue with
    | nil => cases g <;> exact h
    | cons d queue => simp [collectLoop] at h
  | succ f ih =>
    intro queue res r h g hg
    obtain ⟨g, rfl⟩ : ∃ g', g = g' + 1 := ⟨g - 1, by omega⟩
    cases queue with
    | nil => simpa [collectLoop] using h
    | cons d queue =>
      unfold collectLoop at h ⊢
      by_cases hs : (get? res d.path).isSome = true
      · rw [if_pos hs] at h ⊢; exact ih _ _ _ h g (by omega)
      · rw [if_neg hs] at h ⊢; exact ih _ _ _ h g (by omega)

/-- **C23.** For a workspace member, on every disk with finitely many manifests (dependencies may be
cyclic, missing or unreadable): loading terminates, each manifest is loaded once, exactly the manifests the
member reaches are loaded (only itself if its dependencies are not to be resolved), and each is recorded
with the name, the dependencies found and the dependencies missing that its file declares, or as an error
if it cannot be read; it is recorded as a git package only if some path to it has a git dependency and as a
local package only if some path has none. -/
theorem C23_loads_exactly_reachable (fs : Fs P R) (univ : List P) (hu : Finite fs univ) (m : Member P) :
    ∃ n res, (∀ fuel ≥ n, collectReachable fs fuel m = some res) ∧ (keys res).Nodup ∧
      (∀ p, p ∈ keys res ↔ Loads fs m p) ∧
      (∀ p v, (p, v) ∈ res → ∃ g, Path fs m.path g p ∧ v = expected fs m.resolve g p) := by
  have h0 : LoadInv fs m [⟨m.path, .localPkg, m.resolve⟩] [] := by
    refine ⟨List.nodup_nil, by simp, ?_, by simp [keys], by simp⟩
    intro i hi
    rw [List.mem_singleton] at hi
    subst hi
    exact ⟨Or.inl rfl, rfl, false, .start, rfl⟩
  obtain ⟨res, h1, h2⟩ := collectLoop_spec hu _ _ _ h0 (Nat.le_refl _)
  refine ⟨_, res, fun fuel hf => collectLoop_mono _ _ _ _ h1 fuel hf, h2.nodup, fun p => ⟨?_, ?_⟩,
    fun p v hpv => (h2.entries p v hpv).2⟩
  · intro hp
    obtain ⟨⟨q, v⟩, hq, rfl⟩ := List.mem_map.1 hp
    exact (h2.entries q v hq).1
  · have hroot : m.path ∈ keys res := by
      rcases h2.root with h | h
      · exact h
      · cases h
    rintro (rfl | ⟨hm, hr⟩)
    · exact hroot
    · induction hr with
      | refl => exact hroot
      | tail _ he ih =>
        rcases h2.closed hm _ ih _ he with h | h
        · exact h
        · cases h

/-! ### Whole workspaces -/

theorem loadManifests_spec (fs : Fs P R) (univ : List P) (hu : Finite fs univ) (ms : List (Member P))
    (all : List (Member P)) (hsub : ∀ m ∈ ms, m ∈ all) (acc : Map P) (hacc : (keys acc).Nodup)
    (hent : ∀ p v, get? acc p = some v → ∃ m ∈ all, Loads fs m p ∧ ∃ g, Path fs m.path g p ∧
      v = expected fs m.resolve g p) :
    ∃ n res, (∀ fuel ≥ n, loadManifests fs fuel ms acc = some res) ∧ (keys res).Nodup ∧
      (∀ p, p ∈ keys res ↔ p ∈ keys acc ∨ ∃ m ∈ ms, Loads fs m p) ∧
      (∀ p v, get? res p = some v → ∃ m ∈ all, Loads fs m p ∧ ∃ g, Path fs m.path g p ∧
        v = expected fs m.resolve g p) := by
  induction ms generalizing acc with
  | nil => exact ⟨0, acc, fun _ _ => rfl, hacc, by simp, hent⟩
  | cons m ms ih =>
    obtain ⟨n1, r1, a1, a2, a3, a4⟩ := C23_loads_exactly_reachable fs univ hu m
    have hex : ∀ p v, get? (extend acc r1) p = some v → ∃ m ∈ all, Loads fs m p ∧
        ∃ g, Path fs m.path g p ∧ v = expected fs m.resolve g p := by
      intro p v hv
      rw [get?_extend acc a2] at hv
      cases hr : get? r1 p with
      | none =>
        rw [hr, Option.none_or] at hv
        exact hent p v hv
      | some w =>
        rw [hr, Option.some_or] at hv
        cases hv
        have := mem_of_get? hr
        exact ⟨m, hsub m (List.mem_cons_self ..), (a3 p).1 (mem_keys this), a4 p _ this⟩
    obtain ⟨n2, r2, b1, b2, b3, b4⟩ := ih (fun x hx => hsub x (List.mem_cons_of_mem _ hx)) (extend acc r1)
      (nodup_extend hacc r1) hex
    refine ⟨max n1 n2, r2, ?_, b2, ?_, b4⟩
    · intro fuel hf
      rw [loadManifests, a1 fuel (by omega)]
      exact b1 fuel (by omega)
    · intro p
      rw [b3 p, ← get?_isSome (extend acc r1), get?_extend acc a2, Option.isSome_or, Bool.or_eq_true,
        get?_isSome, get?_isSome, a3]
      constructor
      · rintro ((h | h) | ⟨x, h1, h2⟩)
        · exact Or.inr ⟨m, List.mem_cons_self .., h⟩
        · exact Or.inl h
        · exact Or.inr ⟨x, List.mem_cons_of_mem _ h1, h2⟩
      · rintro (h | ⟨x, h1, h2⟩)
        · exact Or.inl (Or.inr h)
        · rcases List.mem_cons.1 h1 with rfl | h1
          · exact Or.inl (Or.inl h2)
          · exact Or.inr ⟨x, h1, h2⟩

/-- **C23 (workspace).** A workspace loads exactly the manifests its members reach, each once, and each is
recorded as one of the members that reach it requires. -/
theorem C23_workspace (fs : Fs P R) (univ : List P) (hu : Finite fs univ) (ms : List (Member P)) :
    ∃ n res, (∀ fuel ≥ n, loadManifests fs fuel ms [] = some res) ∧ (keys res).Nodup ∧
      (∀ p, p ∈ keys res ↔ ∃ m ∈ ms, Loads fs m p) ∧
      (∀ p v, (p, v) ∈ res → ∃ m ∈ ms, Loads fs m p ∧ ∃ g, Path fs m.path g p ∧
        v = expected fs m.resolve g p) := by
  obtain ⟨n, res, h1, h2, h3, h4⟩ := loadManifests_spec fs univ hu ms ms (fun _ h => h) [] List.nodup_nil
    (by intro p v h; cases h)
  exact ⟨n, res, h1, h2, by simpa [keys] using h3, fun p v hv => h4 p v ((get?_eq_some h2 p v).2 hv)⟩

/-- **C24.** If the dependencies of all members are to be resolved and no member is reached from a member
through a git dependency, then every readable member is loaded as a local package with its dependencies
resolved, in whatever order the members are listed and whoever depends on it. -/
theorem C24_members_are_local_partial (fs : Fs P R) (univ : List P) (hu : Finite fs univ)
    (ms : List (Member P)) (hres : ∀ m ∈ ms, m.resolve = true)
    (hgit : ∀ m ∈ ms, ∀ m' ∈ ms, ¬ Path fs m'.path true m.path) :
    ∃ n res, (∀ fuel ≥ n, loadManifests fs fuel ms [] = some res) ∧
      ∀ m ∈ ms, ∀ t, fs.read m.path = some t → ∃ e, get? res m.path = some (some e) ∧
        e.kind = .localPkg ∧ e.resolve = true ∧ e.declared = foundDeps fs m.path false t ∧
        e.missing = missingDeps fs m.path t := by
  obtain ⟨n, res, h1, h2, h3, h4⟩ := C23_workspace fs univ hu ms
  refine ⟨n, res, h1, fun m hm t ht => ?_⟩
  have hk : m.path ∈ keys res := (h3 _).2 ⟨m, hm, Or.inl rfl⟩
  obtain ⟨v, hv⟩ := Option.isSome_iff_exists.1 ((get?_isSome _ _).2 hk)
  obtain ⟨m', hm', -, g, hg, rfl⟩ := h4 _ _ (mem_of_get? hv)
  have hg' : g = false := by
    cases g with
    | false => rfl
    | true => exact absurd hg (hgit m hm m' hm')
  subst hg'
  rw [hv, hres m' hm']
  simp only [expected, ht, Option.map_some, if_true]
  exact ⟨_, rfl, rfl, rfl, rfl, rfl⟩

/-- **C24 (order).** If all members resolve their dependencies and no package is reached both with and
without a git dependency on the way, the packages loaded do not depend on the order of the members. -/
theorem C24_order_irrelevant_partial (fs : Fs P R) (univ : List P) (hu : Finite fs univ)
    (ms ms' : List (Member P)) (hperm : ∀ m, m ∈ ms ↔ m ∈ ms') (hres : ∀ m ∈ ms, m.resolve = true)
    (hgit : ∀ p, ∀ m ∈ ms, ∀ m' ∈ ms, ∀ g g', Path fs m.path g p → Path fs m'.path g' p → g = g') :
    ∃ n res res', (∀ fuel ≥ n, loadManifests fs fuel ms [] = some res ∧
      loadManifests fs fuel ms' [] = some res') ∧ ∀ p, get? res p = get? res' p := by
  obtain ⟨n, res, h1, h2, h3, h4⟩ := C23_workspace fs univ hu ms
  obtain ⟨n', res', h1', h2', h3', h4'⟩ := C23_workspace fs univ hu ms'
  refine ⟨max n n', res, res', fun fuel hf => ⟨h1 fuel (by omega), h1' fuel (by omega)⟩, fun p => ?_⟩
  have hkeys : p ∈ keys res ↔ p ∈ keys res' := by
    rw [h3, h3']
    constructor
    · rintro ⟨m, hm, h⟩; exact ⟨m, (hperm m).1 hm, h⟩
    · rintro ⟨m, hm, h⟩; exact ⟨m, (hperm m).2 hm, h⟩
  cases hv : get? res p with
  | none =>
    rw [get?_eq_none, hkeys, ← get?_eq_none] at hv
    exact hv.symm
  | some v =>
    have : p ∈ keys res' := hkeys.1 ((get?_isSome _ _).1 (by rw [hv]; rfl))
    obtain ⟨v', hv'⟩ := Option.isSome_iff_exists.1 ((get?_isSome _ _).2 this)
    rw [hv']
    obtain ⟨m, hm, -, g, hg, rfl⟩ := h4 _ _ (mem_of_get? hv)
    obtain ⟨m', hm', -, g', hg', rfl⟩ := h4' _ _ (mem_of_get? hv')
    have hm'' := (hperm m').2 hm'
    rw [hgit p m hm m' hm'' g g' hg hg', hres m hm, hres m' hm'']

/-- A disk: package 0 depends on package 1 locally and on a missing package, 2 depends on 1 by git. -/
def exampleFs : Fs Nat Nat where
  read p :=
    match p with
    | 0 => some ⟨some "a", [⟨"b", false, "1"⟩, ⟨"x", false, "7"⟩]⟩
    | 1 => some ⟨some "b", []⟩
    | 2 => some ⟨some "c", [⟨"b", true, "1"⟩]⟩
    | _ => none
  depRoot _ d := if d.location = "1" then some 1 else some 7
  findToml r := if r = 1 then some 1 else none

example : Finite exampleFs [0, 1, 2] := by
  intro p hp
  match p with
  | 0 => simp
  | 1 => simp
  | 2 => simp
  | n + 3 => exact absurd rfl hp

example : loadManifests exampleFs 5 [⟨0, true⟩, ⟨1, true⟩] [] = some
    [(0, some ⟨some "a", .localPkg, [(1, .localPkg)], true, ["x"]⟩),
     (1, some ⟨some "b", .localPkg, [], true, []⟩)] := by
  decide +kernel

/-- **C24 fails.** With members 1 (found before) and 2, where 2 has a git dependency that is the member 1:
in one order 1 is a git package, which is not editable, and in the other a local one. -/
theorem C24_git_dependency_fails : ∃ (fs : Fs Nat Nat) (univ : List Nat), Finite fs univ ∧
    (∀ fuel ≥ 5, ∃ res, loadManifests fs fuel [⟨1, true⟩, ⟨2, true⟩] [] = some res ∧
      (get? res 1).map (·.map (·.kind)) = some (some .git)) ∧
    (∀ fuel ≥ 5, ∃ res, loadManifests fs fuel [⟨2, true⟩, ⟨1, true⟩] [] = some res ∧
      (get? res 1).map (·.map (·.kind)) = some (some .localPkg)) := by
  refine ⟨exampleFs, [0, 1, 2], ?_, ?_, ?_⟩
  · intro p hp
    match p with
    | 0 => simp
    | 1 => simp
    | 2 => simp
    | n + 3 => exact absurd rfl hp
  · intro fuel hf
    obtain ⟨k, rfl⟩ : ∃ k, fuel = k + 5 := ⟨fuel - 5, by omega⟩
    exact ⟨_, rfl, by decide +kernel⟩
  · intro fuel hf
    obtain ⟨k, rfl⟩ : ∃ k, fuel = k + 5 := ⟨fuel - 5, by omega⟩
    exact ⟨_, rfl, by decide +kernel⟩

/-- **C24 fails (resolving).** A member whose dependencies are not resolved hides the dependencies which
another member, listed before, needs it to have: member 0 (not resolved) and another package 3 that depends
on 0 — after both are loaded, 0 has no dependencies in one order and has them in the other. -/
theorem C24_unresolved_member_fails : ∃ (fs : Fs Nat Nat) (univ : List Nat), Finite fs univ ∧
    (∀ fuel ≥ 5, ∃ res, loadManifests fs fuel [⟨1, true⟩, ⟨0, false⟩] [] = some res ∧
      (get? res 0).map (·.map (·.declared)) = some (some [])) ∧
    (∀ fuel ≥ 5, ∃ res, loadManifests fs fuel [⟨0, false⟩, ⟨1, true⟩] [] = some res ∧
      (get? res 0).map (·.map (·.declared)) = some (some [(2, .localPkg)])) := by
  refine ⟨⟨fun p => match p with
      | 0 => some ⟨some "a", [⟨"c", false, "2"⟩]⟩
      | 1 => some ⟨some "b", [⟨"a", false, "0"⟩]⟩
      | 2 => some ⟨some "c", []⟩
      | _ => none,
    fun _ d => if d.location = "0" then some 0 else some 2, some⟩, [0, 1, 2], ?_, ?_, ?_⟩
  · intro p hp
    match p with
    | 0 => simp
    | 1 => simp
    | 2 => simp
    | n + 3 => exact absurd rfl hp
  · intro fuel hf
    obtain ⟨k, rfl⟩ : ∃ k, fuel = k + 5 := ⟨fuel - 5, by omega⟩
    exact ⟨_, rfl, by decide +kernel⟩
  · intro fuel hf
    obtain ⟨k, rfl⟩ : ∃ k, fuel = k + 5 := ⟨fuel - 5, by omega⟩
    exact ⟨_, rfl, by decide +kernel⟩

/-! ### C22 for a whole workspace -/

theorem mem_validEntries (m : Map P) (p : P) (e : Entry P) :
    (p, e) ∈ validEntries m ↔ (p, some e) ∈ m := by
  unfold validEntries
  rw [List.mem_filterMap]
  constructor
  · rintro ⟨⟨q, v⟩, h1, h2⟩
    cases v with
    | none => cases h2
    | some e' =>
      simp only [Option.map_some, Option.some.injEq, Prod.mk.injEq] at h2
      obtain ⟨rfl, rfl⟩ := h2
      exact h1
  · intro h
    exact ⟨(p, some e), h, rfl⟩

theorem keys_validEntries_nodup {m : Map P} (h : (keys m).Nodup) : (keys (validEntries m)).Nodup := by
  have : List.Sublist (keys (validEntries m)) (keys m) := by
    clear h
    induction m with
    | nil => exact List.Sublist.refl _
    | cons a m ih =>
      obtain ⟨p, v⟩ := a
      cases v with
      | none => exact List.Sublist.cons _ ih
      | some e => exact List.Sublist.cons_cons _ ih
  exact h.sublist this

theorem buildPackages_spec (valid : List (P × Entry P)) (m : Map P)
    (f : P → Entry P → List (P × Kind))
    (hf : ∀ p e, (p, some e) ∈ m → ∃ n, ∀ fuel ≥ n, collectDeps valid fuel e.declared = some (f p e)) :
    ∃ n, ∀ fuel ≥ n, buildPackages valid fuel m = some
      (m.map fun q => q.2.map fun e => ⟨e.name, q.1, e.kind, f q.1 e, e.resolve, e.missing⟩) := by
  induction m with
  | nil => exact ⟨0, fun _ _ => rfl⟩
  | cons a m ih =>
    obtain ⟨n, hn⟩ := ih (fun p e h => hf p e (List.mem_cons_of_mem _ h))
    obtain ⟨p, v⟩ := a
    cases v with
    | none =>
      refine ⟨n, fun fuel hfu => ?_⟩
      rw [buildPackages, hn fuel hfu]
      rfl
    | some e =>
      obtain ⟨n', hn'⟩ := hf p e (List.mem_cons_self ..)
      refine ⟨max n n', fun fuel hfu => ?_⟩
      rw [buildPackages, hn' fuel (by omega), hn fuel (by omega)]
      rfl

/-- **C22 (whole workspace).** In a workspace whose members resolve their dependencies and in which no two
loaded packages have the same name, loading terminates, there is one package for each readable manifest
reached from a member, and the dependencies of every package are exactly the manifests reachable from it on
disk, none listed twice. -/
theorem C22_workspace_partial (fs : Fs P R) (univ : List P) (hu : Finite fs univ) (ms : List (Member P))
    (hres : ∀ m ∈ ms, m.resolve = true)
    (hnames : ∀ p q t t' n, (∃ m ∈ ms, Loads fs m p) → (∃ m ∈ ms, Loads fs m q) → fs.read p = some t →
      fs.read q = some t' → t.name = some n → t'.name = some n → p = q) :
    ∃ n pkgs, (∀ fuel ≥ n, loadPackages fs fuel ms = some pkgs) ∧
      (∀ p, (∃ pk, some pk ∈ pkgs ∧ pk.path = p) ↔ (∃ m ∈ ms, Loads fs m p) ∧ fs.read p ≠ none) ∧
      (none ∈ pkgs ↔ ∃ p, (∃ m ∈ ms, Loads fs m p) ∧ fs.read p = none) ∧
      ∀ pk, some pk ∈ pkgs → (keys pk.deps).Nodup ∧
        ∀ q, q ∈ keys pk.deps ↔ Relation.TransGen (FsEdge fs) pk.path q := by
  obtain ⟨n, res, h1, h2, h3, h4⟩ := C23_workspace fs univ hu ms
  have hent : ∀ p v, (p, v) ∈ res → ∃ g, v = expected fs true g p := by
    intro p v h
    obtain ⟨m, hm, -, g, -, he⟩ := h4 p v h
    rw [hres m hm] at he
    exact ⟨g, he⟩
  -- loaded manifests are closed under edges
  have hclosed : ∀ p q, p ∈ keys res → FsEdge fs p q → q ∈ keys res := by
    intro p q hp he
    obtain ⟨m, hm, hl⟩ := (h3 p).1 hp
    exact (h3 q).2 ⟨m, hm, loads_step hl (hres m hm) he⟩
  have hread : ∀ p e, (p, some e) ∈ res → ∃ t, fs.read p = some t ∧ e.name = t.name ∧
      ∀ q, (∃ k, (q, k) ∈ e.declared) ↔ FsEdge fs p q := by
    intro p e h
    obtain ⟨g, he⟩ := hent p _ h
    unfold expected at he
    cases hr : fs.read p with
    | none => rw [hr] at he; cases he
    | some t =>
      rw [hr] at he
      simp only [Option.map_some, if_true, Option.some.injEq] at he
      subst he
      refine ⟨t, rfl, rfl, fun q => ?_⟩
      simp only [foundDeps, List.mem_filterMap]
      constructor
      · rintro ⟨k, d, hd, hx⟩
        cases ha : fs.depRoot p d with
        | none => simp [ha] at hx
        | some r =>
          cases hb : fs.findToml r with
          | none => simp [ha, hb] at hx
          | some q' =>
            simp only [ha, hb, Option.bind_some, Option.map_some, Option.some.injEq, Prod.mk.injEq] at hx
            obtain ⟨rfl, -⟩ := hx
            exact ⟨t, d, r, hr, hd, ha, hb⟩
      · rintro ⟨t', d, r, e1, e2, e3, e4⟩
        rw [hr] at e1
        cases e1
        exact ⟨kindOf (g || d.git), d, e2, by simp [e3, e4]⟩
  have hval : ∀ p, p ∈ keys res → fs.read p ≠ none → ∃ e, (p, some e) ∈ res := by
    intro p hp hr
    obtain ⟨⟨q, v⟩, hq, rfl⟩ := List.mem_map.1 hp
    obtain ⟨g, he⟩ := hent q v hq
    obtain ⟨t, ht⟩ := Option.ne_none_iff_exists'.1 hr
    simp only [expected, ht, Option.map_some] at he
    rw [he] at hq
    exact ⟨_, hq⟩
  have hedge : ∀ p q, p ∈ keys res → (Edge (validEntries res) p q ↔ FsEdge fs p q) := by
    intro p q hp
    constructor
    · rintro ⟨e, k, a, b⟩
      rw [mem_validEntries] at a
      obtain ⟨t, -, -, c⟩ := hread p e a
      exact (c q).1 ⟨k, b⟩
    · intro he
      obtain ⟨t, d, r, e1, -⟩ := id he
      obtain ⟨e, a⟩ := hval p hp (by rw [e1]; simp)
      obtain ⟨-, -, -, c⟩ := hread p e a
      obtain ⟨k, b⟩ := (c q).2 he
      exact ⟨e, k, (mem_validEntries _ _ _).2 a, b⟩
  have hreach : ∀ p e, (p, some e) ∈ res → ∀ q,
      Reach (validEntries res) e.declared q ↔ Relation.TransGen (FsEdge fs) p q := by
    intro p e he q
    obtain ⟨t, -, -, c⟩ := hread p e he
    have hp : p ∈ keys res := mem_keys he
    constructor
    · rintro ⟨d, hd, hr⟩
      have hd' : FsEdge fs p d.1 := (c d.1).1 ⟨d.2, hd⟩
      have : Relation.TransGen (FsEdge fs) p q ∧ q ∈ keys res := by
        induction hr with
        | refl => exact ⟨.single hd', hclosed _ _ hp hd'⟩
        | tail _ hx ih =>
          have hx' := (hedge _ _ ih.2).1 hx
          exact ⟨ih.1.tail hx', hclosed _ _ ih.2 hx'⟩
      exact this.1
    · intro hr
      have : Reach (validEntries res) e.declared q ∧ q ∈ keys res := by
        induction hr with
        | single hx =>
          obtain ⟨k, hk⟩ := (c _).2 hx
          exact ⟨⟨_, hk, .refl⟩, hclosed _ _ hp hx⟩
        | tail _ hx ih => exact ⟨reach_step ih.1 ((hedge _ _ ih.2).2 hx), hclosed _ _ ih.2 hx⟩
      exact this.1
  have hloaded : ∀ p e q, (p, some e) ∈ res → Reach (validEntries res) e.declared q → q ∈ keys res := by
    intro p e q he hr
    rw [hreach p e he] at hr
    have hp : p ∈ keys res := mem_keys he
    induction hr with
    | single hx => exact hclosed _ _ hp hx
    | tail _ hx ih => exact hclosed _ _ ih hx
  have hname : ∀ p n, HasName (validEntries res) p n → p ∈ keys res ∧ ∃ t, fs.read p = some t ∧ t.name = some n := by
    rintro p n ⟨e, a, b⟩
    rw [mem_validEntries] at a
    obtain ⟨t, c1, c2, -⟩ := hread p e a
    exact ⟨mem_keys a, t, c1, by rw [← c2, b]⟩
  have hcol : ∀ p e, (p, some e) ∈ res → ∃ r : List (P × Kind),
      (∃ n, ∀ fuel ≥ n, collectDeps (validEntries res) fuel e.declared = some r) ∧ (keys r).Nodup ∧
      ∀ q, q ∈ keys r ↔ Relation.TransGen (FsEdge fs) p q := by
    intro p e he
    obtain ⟨k, r, a, b, c⟩ := C22_exactly_reachable (validEntries res) (keys_validEntries_nodup h2) e.declared (by
      intro x y m _ _ hx hy
      obtain ⟨x1, t, x2, x3⟩ := hname x m hx
      obtain ⟨y1, t', y2, y3⟩ := hname y m hy
      exact hnames x y t t' m ((h3 x).1 x1) ((h3 y).1 y1) x2 y2 x3 y3)
    exact ⟨r, ⟨k, a⟩, b, fun q => (c q).trans (hreach p e he q)⟩
  classical
  let f : P → Entry P → List (P × Kind) := fun p e =>
    if h : (p, some e) ∈ res then (hcol p e h).choose else []
  have hf : ∀ p e, (p, some e) ∈ res →
      (∃ n, ∀ fuel ≥ n, collectDeps (validEntries res) fuel e.declared = some (f p e)) ∧ (keys (f p e)).Nodup ∧
      ∀ q, q ∈ keys (f p e) ↔ Relation.TransGen (FsEdge fs) p q := by
    intro p e he
    have : f p e = (hcol p e he).choose := dif_pos he
    rw [this]
    exact (hcol p e he).choose_spec
  obtain ⟨n', hn'⟩ := buildPackages_spec (validEntries res) res f (fun p e he => (hf p e he).1)
  refine ⟨max n n', (res.map fun q => q.2.map fun e => ⟨e.name, q.1, e.kind, f q.1 e, e.resolve, e.missing⟩),
    fun fuel hfu => ?_, ?_, ?_, ?_⟩
  · rw [loadPackages, h1 fuel (by omega)]
    exact hn' fuel (by omega)
  · intro p
    constructor
    · rintro ⟨pk, hpk, rfl⟩
      obtain ⟨⟨q, v⟩, hq, hv⟩ := List.mem_map.1 hpk
      cases v with
      | none => cases hv
      | some e =>
        simp only [Option.map_some, Option.some.injEq] at hv
        subst hv
        obtain ⟨t, ht, -⟩ := hread q e hq
        exact ⟨(h3 q).1 (mem_keys hq), by simp [ht]⟩
    · rintro ⟨hl, hr⟩
      obtain ⟨e, he⟩ := hval p ((h3 p).2 hl) hr
      exact ⟨_, List.mem_map.2 ⟨(p, some e), he, rfl⟩, rfl⟩
  · rw [List.mem_map]
    constructor
    · rintro ⟨⟨q, v⟩, hq, hv⟩
      cases v with
      | some e => cases hv
      | none =>
        obtain ⟨g, he⟩ := hent q _ hq
        refine ⟨q, (h3 q).1 (mem_keys hq), ?_⟩
        unfold expected at he
        exact Option.map_eq_none_iff.1 he.symm
    · rintro ⟨p, hl, hr⟩
      obtain ⟨⟨q, v⟩, hq, rfl⟩ := List.mem_map.1 ((h3 p).2 hl)
      obtain ⟨g, he⟩ := hent q _ hq
      refine ⟨(q, v), hq, ?_⟩
      rw [he, expected, hr]
      rfl
  · intro pk hpk
    obtain ⟨⟨q, v⟩, hq, hv⟩ := List.mem_map.1 hpk
    cases v with
    | none => cases hv
    | some e =>
      simp only [Option.map_some, Option.some.injEq] at hv
      subst hv
      exact ⟨(hf q e hq).2.1, (hf q e hq).2.2⟩

/-- The example disk gives two packages; the first depends on the second. -/
example : (loadPackages exampleFs 9 [⟨0, true⟩, ⟨1, true⟩]).map (·.map (·.map fun p => (p.path, keys p.deps))) =
    some [some (0, [1]), some (1, [])] := by
  decide +kernel

end Verif.Packages
