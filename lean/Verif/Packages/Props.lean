import Verif.Packages.Spec
import Verif.Packages.Lemmas

/-! Property theorems C22, C23, C24. -/

set_option linter.unusedSectionVars false

namespace Verif.Packages

variable {P R : Type} [DecidableEq P]

/-! ### C22 -/

/-- The invariant of `depsLoop`. -/
structure DepsInv (valid : List (P × Entry P)) (declared : List (P × Kind))
    (queue : List (P × Kind)) (seen : List P) (names : List String) (res : List (P × Kind)) : Prop where
  nodup : (keys res).Nodup
  resSeen : ∀ p ∈ keys res, p ∈ seen
  seenReach : ∀ p ∈ seen, Reach valid declared p
  queueReach : ∀ d ∈ queue, Reach valid declared d.1
  shadowed : ∀ p ∈ seen, p ∈ keys res ∨ ∃ q ∈ keys res, q ≠ p ∧ ∃ n, HasName valid p n ∧ HasName valid q n
  closed : ∀ p ∈ keys res, ∀ q, Edge valid p q → q ∈ seen ∨ q ∈ keys queue
  start : ∀ d ∈ declared, d.1 ∈ seen ∨ d.1 ∈ keys queue
  names : ∀ n, n ∈ names ↔ ∃ p ∈ keys res, HasName valid p n
  distinct : ∀ p ∈ keys res, ∀ q ∈ keys res, ∀ n, HasName valid p n → HasName valid q n → p = q
  kinds : ∀ d ∈ res ++ queue, d ∈ declared ∨ ∃ p ∈ keys res, ∃ e, (p, e) ∈ valid ∧ d ∈ e.declared

theorem reach_step {valid : List (P × Entry P)} {declared : List (P × Kind)} {p q : P}
    (h : Reach valid declared p) (he : Edge valid p q) : Reach valid declared q := by
  obtain ⟨d, h1, h2⟩ := h
  exact ⟨d, h1, h2.tail he⟩

theorem mem_keys {V : Type} {m : List (P × V)} {d : P × V} (h : d ∈ m) : d.1 ∈ keys m :=
  List.mem_map_of_mem (f := Prod.fst) h

theorem keys_append {V : Type} (m n : List (P × V)) : keys (m ++ n) = keys m ++ keys n := by
  simp [keys]

/-- The measure: queue length plus what the unseen manifests can still add. -/
def depsMeasure (valid : List (P × Entry P)) (queue : List (P × Kind)) (seen : List P) : Nat :=
  queue.length + weight (fun p => ((get? valid p).elim 0 (fun e => e.declared.length)))
    (fun p => decide (p ∈ seen)) (keys valid)

/-- Taking one dependency that is pushed to the result. -/
theorem depsInv_push {valid : List (P × Entry P)}
    {declared : List (P × Kind)} {d : P × Kind} {queue more : List (P × Kind)} {seen : List P}
    {names names' : List String} {res : List (P × Kind)}
    (h : DepsInv valid declared (d :: queue) seen names res) (hs : d.1 ∉ seen)
    (hmore : ∀ x, x ∈ more ↔ ∃ e, (d.1, e) ∈ valid ∧ x ∈ e.declared)
    (hnames : ∀ n, n ∈ names' ↔ n ∈ names ∨ HasName valid d.1 n)
    (hfresh : ∀ n, HasName valid d.1 n → n ∉ names) :
    DepsInv valid declared (queue ++ more) (d.1 :: seen) names' (res ++ [d]) := by
  have hk : keys (res ++ [d]) = keys res ++ [d.1] := by simp [keys]
  have hdr : Reach valid declared d.1 := h.queueReach d (List.mem_cons_self ..)
  constructor
  · rw [hk, List.nodup_append]
    refine ⟨h.nodup, by simp, ?_⟩
    intro a ha b hb he
    rw [List.mem_singleton] at hb
    subst he hb
    exact hs (h.resSeen _ ha)
  · intro p hp
    rw [hk, List.mem_append, List.mem_singleton] at hp
    rcases hp with hp | rfl
    · exact List.mem_cons_of_mem _ (h.resSeen p hp)
    · exact List.mem_cons_self ..
  · intro p hp
    rcases List.mem_cons.1 hp with rfl | hp
    · exact hdr
    · exact h.seenReach p hp
  · intro x hx
    rcases List.mem_append.1 hx with hx | hx
    · exact h.queueReach x (List.mem_cons_of_mem _ hx)
    · obtain ⟨e, h1, h2⟩ := (hmore x).1 hx
      exact reach_step hdr ⟨e, x.2, h1, h2⟩
  · intro p hp
    rw [hk]
    rcases List.mem_cons.1 hp with rfl | hp
    · exact Or.inl (by simp)
    · rcases h.shadowed p hp with h1 | ⟨q, h1, h2⟩
      · exact Or.inl (List.mem_append_left _ h1)
      · exact Or.inr ⟨q, List.mem_append_left _ h1, h2⟩
  · intro p hp q he
    rw [hk, List.mem_append, List.mem_singleton] at hp
    rw [keys_append, List.mem_append, List.mem_cons]
    rcases hp with hp | rfl
    · rcases h.closed p hp q he with h1 | h1
      · exact Or.inl (Or.inr h1)
      · simp only [keys, List.map_cons, List.mem_cons] at h1
        rcases h1 with h1 | h1
        · exact Or.inl (Or.inl h1)
        · exact Or.inr (Or.inl h1)
    · obtain ⟨e, k, h1, h2⟩ := he
      exact Or.inr (Or.inr (mem_keys ((hmore (q, k)).2 ⟨e, h1, h2⟩)))
  · intro x hx
    rw [keys_append, List.mem_append, List.mem_cons]
    rcases h.start x hx with h1 | h1
    · exact Or.inl (Or.inr h1)
    · simp only [keys, List.map_cons, List.mem_cons] at h1
      rcases h1 with h1 | h1
      · exact Or.inl (Or.inl h1)
      · exact Or.inr (Or.inl h1)
  · intro n
    rw [hnames, h.names, hk]
    constructor
    · rintro (⟨p, h1, h2⟩ | h1)
      · exact ⟨p, List.mem_append_left _ h1, h2⟩
      · exact ⟨d.1, by simp, h1⟩
    · rintro ⟨p, h1, h2⟩
      rw [List.mem_append, List.mem_singleton] at h1
      rcases h1 with h1 | rfl
      · exact Or.inl ⟨p, h1, h2⟩
      · exact Or.inr h2
  · intro p hp q hq n h1 h2
    rw [hk, List.mem_append, List.mem_singleton] at hp hq
    rcases hp with hp | rfl <;> rcases hq with hq | rfl
    · exact h.distinct p hp q hq n h1 h2
    · exact absurd ((h.names n).2 ⟨p, hp, h1⟩) (hfresh n h2)
    · exact absurd ((h.names n).2 ⟨q, hq, h2⟩) (hfresh n h1)
    · rfl
  · intro x hx
    rw [hk]
    rcases List.mem_append.1 hx with hx | hx
    · rcases List.mem_append.1 hx with hx | hx
      · rcases h.kinds x (List.mem_append_left _ hx) with h1 | ⟨p, h1, h2⟩
        · exact Or.inl h1
        · exact Or.inr ⟨p, List.mem_append_left _ h1, h2⟩
      · rw [List.mem_singleton] at hx
        subst hx
        rcases h.kinds x (List.mem_append_right _ (List.mem_cons_self ..)) with h1 | ⟨p, h1, h2⟩
        · exact Or.inl h1
        · exact Or.inr ⟨p, List.mem_append_left _ h1, h2⟩
    · rcases List.mem_append.1 hx with hx | hx
      · rcases h.kinds x (List.mem_append_right _ (List.mem_cons_of_mem _ hx)) with h1 | ⟨p, h1, h2⟩
        · exact Or.inl h1
        · exact Or.inr ⟨p, List.mem_append_left _ h1, h2⟩
      · exact Or.inr ⟨d.1, by simp, (hmore x).1 hx⟩

/-- Taking one dependency that is dropped because it was seen. -/
theorem depsInv_seen {valid : List (P × Entry P)} {declared : List (P × Kind)} {d : P × Kind}
    {queue : List (P × Kind)} {seen : List P} {names : List String} {res : List (P × Kind)}
    (h : DepsInv valid declared (d :: queue) seen names res) (hs : d.1 ∈ seen) :
    DepsInv valid declared queue seen names res := by
  refine ⟨h.nodup, h.resSeen, h.seenReach, fun x hx => h.queueReach x (List.mem_cons_of_mem _ hx),
    h.shadowed, ?_, ?_, h.names, h.distinct, fun x hx => h.kinds x ?_⟩
  · intro p hp q he
    rcases h.closed p hp q he with h1 | h1
    · exact Or.inl h1
    · simp only [keys, List.map_cons, List.mem_cons] at h1
      rcases h1 with rfl | h1
      · exact Or.inl hs
      · exact Or.inr h1
  · intro x hx
    rcases h.start x hx with h1 | h1
    · exact Or.inl h1
    · simp only [keys, List.map_cons, List.mem_cons] at h1
      rcases h1 with h1 | h1
      · exact Or.inl (h1 ▸ hs)
      · exact Or.inr h1
  · rcases List.mem_append.1 hx with hx | hx
    · exact List.mem_append_left _ hx
    · exact List.mem_append_right _ (List.mem_cons_of_mem _ hx)

/-- Taking one dependency that is dropped because its name was seen. -/
theorem depsInv_name {valid : List (P × Entry P)} {declared : List (P × Kind)} {d : P × Kind}
    {queue : List (P × Kind)} {seen : List P} {names : List String} {res : List (P × Kind)}
    (h : DepsInv valid declared (d :: queue) seen names res) (hs : d.1 ∉ seen) (n : String)
    (hd : HasName valid d.1 n) (hn : n ∈ names) :
    DepsInv valid declared queue (d.1 :: seen) names res := by
  refine ⟨h.nodup, fun p hp => List.mem_cons_of_mem _ (h.resSeen p hp), ?_,
    fun x hx => h.queueReach x (List.mem_cons_of_mem _ hx), ?_, ?_, ?_, h.names, h.distinct,
    fun x hx => h.kinds x ?_⟩
  · intro p hp
    rcases List.mem_cons.1 hp with rfl | hp
    · exact h.queueReach d (List.mem_cons_self ..)
    · exact h.seenReach p hp
  · intro p hp
    rcases List.mem_cons.1 hp with rfl | hp
    · obtain ⟨q, h1, h2⟩ := (h.names n).1 hn
      refine Or.inr ⟨q, h1, fun he => ?_, n, hd, h2⟩
      subst he
      exact hs (h.resSeen _ h1)
    · exact h.shadowed p hp
  · intro p hp q he
    rw [List.mem_cons]
    rcases h.closed p hp q he with h1 | h1
    · exact Or.inl (Or.inr h1)
    · simp only [keys, List.map_cons, List.mem_cons] at h1
      rcases h1 with h1 | h1
      · exact Or.inl (Or.inl h1)
      · exact Or.inr h1
  · intro x hx
    rw [List.mem_cons]
    rcases h.start x hx with h1 | h1
    · exact Or.inl (Or.inr h1)
    · simp only [keys, List.map_cons, List.mem_cons] at h1
      rcases h1 with h1 | h1
      · exact Or.inl (Or.inl h1)
      · exact Or.inr h1
  · rcases List.mem_append.1 hx with hx | hx
    · exact List.mem_append_left _ hx
    · exact List.mem_append_right _ (List.mem_cons_of_mem _ hx)

theorem depsMeasure_le (valid : List (P × Entry P)) (d : P × Kind) (queue : List (P × Kind))
    (seen : List P) (hs : d.1 ∉ seen) :
    depsMeasure valid (queue ++ (get? valid d.1).elim [] (·.declared)) (d.1 :: seen) + 1 ≤
      depsMeasure valid (d :: queue) seen := by
  unfold depsMeasure
  rw [List.length_append, List.length_cons]
  have hm : ∀ p, decide (p ∈ seen) = true → decide (p ∈ d.1 :: seen) = true := by
    intro p hp
    simp only [decide_eq_true_eq] at hp ⊢
    exact List.mem_cons_of_mem _ hp
  cases hg : get? valid d.1 with
  | none =>
    have := weight_mono (fun p => ((get? valid p).elim 0 (fun e => e.declared.length))) _ _ hm (keys valid)
    simp only [Option.elim_none, List.length_nil]
    omega
  | some e =>
    have hx : d.1 ∈ keys valid := (get?_isSome _ _).1 (by rw [hg]; rfl)
    have := weight_add (fun p => ((get? valid p).elim 0 (fun e => e.declared.length))) _ _ hm (keys valid) d.1 hx
      (by simp [hs]) (by simp)
    simp only [hg, Option.elim_some] at this ⊢
    omega

theorem depsLoop_spec {valid : List (P × Entry P)} (hv : (keys valid).Nodup) {declared : List (P × Kind)} :
    ∀ (fuel : Nat) (queue : List (P × Kind)) (seen : List P) (names : List String) (res : List (P × Kind)),
      DepsInv valid declared queue seen names res → depsMeasure valid queue seen ≤ fuel →
      ∃ res' seen' names', depsLoop valid fuel queue seen names res = some res' ∧
        DepsInv valid declared [] seen' names' res' := by
  intro fuel
  induction fuel with
  | zero =>
    intro queue seen names res h hf
    cases queue with
    | nil => exact ⟨res, seen, names, rfl, h⟩
    | cons d queue => simp [depsMeasure] at hf
  | succ fuel ih =>
    intro queue seen names res h hf
    cases queue with
    | nil => exact ⟨res, seen, names, by simp [depsLoop], h⟩
    | cons d queue =>
      unfold depsLoop
      by_cases hs : d.1 ∈ seen
      · rw [if_pos hs]
        refine ih queue seen names res (depsInv_seen h hs) ?_
        simp only [depsMeasure, List.length_cons] at hf ⊢
        omega
      · rw [if_neg hs]
        have hme := depsMeasure_le valid d queue seen hs
        cases hg : get? valid d.1 with
        | none =>
          simp only
          rw [hg] at hme
          have hno : ∀ e, (d.1, e) ∉ valid := by
            intro e he
            rw [get?_eq_none] at hg
            exact hg (mem_keys he)
          have h' := depsInv_push (more := []) (names' := names) h hs
            (by intro x; simp only [List.not_mem_nil, false_iff]; rintro ⟨e, he, -⟩; exact hno e he)
            (by intro n; constructor
                · exact Or.inl
                · rintro (h1 | ⟨e, he, -⟩)
                  · exact h1
                  · exact absurd he (hno e))
            (by rintro n ⟨e, he, -⟩; exact absurd he (hno e))
          rw [List.append_nil] at h'
          refine ih _ _ _ _ h' ?_
          simp only [Option.elim_none, List.append_nil] at hme
          omega
        | some e =>
          simp only
          rw [hg] at hme
          simp only [Option.elim_some] at hme
          have hmem := mem_of_get? hg
          have huniq : ∀ e', (d.1, e') ∈ valid → e' = e := by
            intro e' he'
            have := (get?_eq_some hv d.1 e').2 he'
            rw [hg] at this
            exact (Option.some.inj this).symm
          have hmore : ∀ x, x ∈ e.declared ↔ ∃ e', (d.1, e') ∈ valid ∧ x ∈ e'.declared := by
            intro x
            constructor
            · exact fun hx => ⟨e, hmem, hx⟩
            · rintro ⟨e', h1, h2⟩
              rw [huniq e' h1] at h2
              exact h2
          cases hname : e.name with
          | none =>
            simp only
            refine ih _ _ _ _ (depsInv_push h hs hmore ?_ ?_) (by omega)
            · intro n
              constructor
              · exact Or.inl
              · rintro (h1 | ⟨e', h1, h2⟩)
                · exact h1
                · rw [huniq e' h1, hname] at h2; cases h2
            · rintro n ⟨e', h1, h2⟩
              rw [huniq e' h1, hname] at h2; cases h2
          | some n =>
            simp only
            by_cases hn : n ∈ names
            · rw [if_pos hn]
              refine ih _ _ _ _ (depsInv_name h hs n ⟨e, hmem, hname⟩ hn) ?_
              have : depsMeasure valid queue (d.1 :: seen) ≤
                  depsMeasure valid (queue ++ e.declared) (d.1 :: seen) := by
                simp only [depsMeasure, List.length_append]; omega
              omega
            · rw [if_neg hn]
              refine ih _ _ _ _ (depsInv_push h hs hmore ?_ ?_) (by omega)
              · intro n'
                rw [List.mem_cons]
                constructor
                · rintro (rfl | h1)
                  · exact Or.inr ⟨e, hmem, hname⟩
                  · exact Or.inl h1
                · rintro (h1 | ⟨e', h1, h2⟩)
                  · exact Or.inr h1
                  · rw [huniq e' h1, hname] at h2
                    cases h2; exact Or.inl rfl
              · rintro n' ⟨e', h1, h2⟩
                rw [huniq e' h1, hname] at h2
                cases h2
                exact hn

theorem depsInv_start (valid : List (P × Entry P)) (declared : List (P × Kind)) :
    DepsInv valid declared declared [] [] [] := by
  constructor
  · exact List.nodup_nil
  · intro p hp; cases hp
  · intro p hp; cases hp
  · exact fun d hd => ⟨d, hd, .refl⟩
  · intro p hp; cases hp
  · intro p hp; cases hp
  · exact fun d hd => Or.inr (mem_keys hd)
  · intro n; simp [keys]
  · intro p hp; cases hp
  · exact fun d hd => Or.inl hd

/-- **C22 (every graph).** Collecting dependencies terminates on every graph, cyclic or not, and the result
lists only reachable packages, no package twice and no package name twice; every dependency declared at the
start or by a listed package is itself listed, unless another listed package has the same package name; and
the recorded kind of a dependency is that of one of its declarations. -/
theorem C22_collect_partial (valid : List (P × Entry P)) (hv : (keys valid).Nodup)
    (declared : List (P × Kind)) :
    ∃ n res, (∀ fuel ≥ n, collectDeps valid fuel declared = some res) ∧
      (keys res).Nodup ∧
      (∀ p ∈ keys res, Reach valid declared p) ∧
      (∀ p, ((∃ k, (p, k) ∈ declared) ∨ ∃ q ∈ keys res, Edge valid q p) →
        p ∈ keys res ∨ ∃ q ∈ keys res, q ≠ p ∧ ∃ n, HasName valid p n ∧ HasName valid q n) ∧
      (∀ p ∈ keys res, ∀ q ∈ keys res, ∀ n, HasName valid p n → HasName valid q n → p = q) ∧
      (∀ d ∈ res, d ∈ declared ∨ ∃ p ∈ keys res, ∃ e, (p, e) ∈ valid ∧ d ∈ e.declared) := by
  have key : ∀ fuel ≥ depsMeasure valid declared [], ∃ res seen' names',
      collectDeps valid fuel declared = some res ∧ DepsInv valid declared [] seen' names' res :=
    fun fuel hf => depsLoop_spec hv fuel declared [] [] [] (depsInv_start valid declared) hf
  have mono : ∀ (f : Nat) (queue : List (P × Kind)) (seen : List P) (names : List String)
      (res r : List (P × Kind)), depsLoop valid f queue seen names res = some r →
      ∀ g ≥ f, depsLoop valid g queue seen names res = some r := by
    intro f
    induction f with
    | zero =>
      intro queue seen names res r h g _
      cases queue with
      | nil => cases g <;> exact h
      | cons d queue => simp [depsLoop] at h
    | succ f ih =>
      intro queue seen names res r h g hg
      obtain ⟨g, rfl⟩ : ∃ g', g = g' + 1 := ⟨g - 1, by omega⟩
      have hg' : g ≥ f := by omega
      cases queue with
      | nil => simpa [depsLoop] using h
      | cons d queue =>
        unfold depsLoop at h ⊢
        by_cases hs : d.1 ∈ seen
        · rw [if_pos hs] at h ⊢; exact ih _ _ _ _ _ h g hg'
        · rw [if_neg hs] at h ⊢
          cases hgt : get? valid d.1 with
          | none => rw [hgt] at h; exact ih _ _ _ _ _ h g hg'
          | some e =>
            rw [hgt] at h
            simp only at h ⊢
            cases hname : e.name with
            | none => rw [hname] at h; exact ih _ _ _ _ _ h g hg'
            | some n =>
              rw [hname] at h
              simp only at h ⊢
              by_cases hn : n ∈ names
              · rw [if_pos hn] at h ⊢; exact ih _ _ _ _ _ h g hg'
              · rw [if_neg hn] at h ⊢; exact ih _ _ _ _ _ h g hg'
  obtain ⟨res, seen', names', h1, h2⟩ := key _ (Nat.le_refl _)
  refine ⟨depsMeasure valid declared [], res, fun fuel hf => mono _ _ _ _ _ _ h1 fuel hf, h2.nodup,
    fun p hp => h2.seenReach p (h2.resSeen p hp), ?_, h2.distinct, ?_⟩
  · intro p hp
    apply h2.shadowed
    rcases hp with ⟨k, hk⟩ | ⟨q, hq, he⟩
    · rcases h2.start _ hk with h | h
      · exact h
      · cases h
    · rcases h2.closed q hq p he with h | h
      · exact h
      · cases h
  · intro d hd
    exact h2.kinds d (List.mem_append_left _ hd)

/-- **C22 (distinct names).** If no two reachable packages have the same name, the result is exactly what is
reachable. -/
theorem C22_exactly_reachable (valid : List (P × Entry P)) (hv : (keys valid).Nodup)
    (declared : List (P × Kind))
    (hnames : ∀ p q n, Reach valid declared p → Reach valid declared q → HasName valid p n →
      HasName valid q n → p = q) :
    ∃ n res, (∀ fuel ≥ n, collectDeps valid fuel declared = some res) ∧ (keys res).Nodup ∧
      ∀ p, p ∈ keys res ↔ Reach valid declared p := by
  obtain ⟨n, res, h1, h2, h3, h4, -, -⟩ := C22_collect_partial valid hv declared
  have hall : ∀ p, Reach valid declared p →
      ((∃ k, (p, k) ∈ declared) ∨ ∃ q ∈ keys res, Edge valid q p) → p ∈ keys res := by
    intro p hp hd
    rcases h4 p hd with h | ⟨q, hq, hne, m, hm1, hm2⟩
    · exact h
    · exact absurd (hnames q p m (h3 q hq) hp hm2 hm1) hne
  refine ⟨n, res, h1, h2, fun p => ⟨h3 p, ?_⟩⟩
  rintro ⟨d, hd, hr⟩
  induction hr with
  | refl => exact hall _ ⟨d, hd, .refl⟩ (Or.inl ⟨d.2, hd⟩)
  | tail hr he ih => exact hall _ ⟨d, hd, hr.tail he⟩ (Or.inr ⟨_, ih, he⟩)

/-- A cycle and a diamond: 1 → 2, 3; 2 → 4; 3 → 4; 4 → 1. -/
def exampleGraph : List (Nat × Entry Nat) :=
  [(1, ⟨some "a", .localPkg, [(2, .localPkg), (3, .localPkg)], true, []⟩),
   (2, ⟨some "b", .localPkg, [(4, .localPkg)], true, []⟩),
   (3, ⟨none, .localPkg, [(4, .git)], true, []⟩),
   (4, ⟨some "d", .localPkg, [(1, .localPkg)], true, []⟩)]

example : (keys exampleGraph).Nodup ∧
    collectDeps exampleGraph 20 [(2, .localPkg), (3, .localPkg)] =
      some [(2, .localPkg), (3, .localPkg), (4, .localPkg), (1, .localPkg)] := by
  decide +kernel

/-- **C22 fails with equal names.** A package whose name was seen before is skipped, and with it everything
that only it depends on: 3 is omitted although it is reachable. -/
theorem C22_same_name_fails : ∃ (valid : List (Nat × Entry Nat)) (declared : List (Nat × Kind)),
    (keys valid).Nodup ∧ Reach valid declared 3 ∧
    ∀ fuel res, collectDeps valid fuel declared = some res → 3 ∉ keys res := by
  refine ⟨[(1, ⟨some "a", .localPkg, [], true, []⟩), (2, ⟨some "a", .localPkg, [(3, .localPkg)], true, []⟩)],
    [(1, .localPkg), (2, .localPkg)], by decide, ⟨(2, .localPkg), by simp, ?_⟩, ?_⟩
  · exact Relation.ReflTransGen.single
      ⟨⟨some "a", .localPkg, [(3, .localPkg)], true, []⟩, .localPkg, by simp, by simp⟩
  · intro fuel res h
    match fuel with
    | 0 => cases h
    | 1 => cases h
    | n + 2 =>
      have : res = [(1, .localPkg)] := by
        cases n <;> exact (Option.some.inj (h : some _ = some res)).symm
      subst this
      decide

end Verif.Packages
