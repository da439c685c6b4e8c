import Verif.Types.Compat

/-! C39: what the abilities are used for, the check of a type argument against the bounds of its type parameter. -/

namespace Verif.Types

theorem abilityCheck_code {decl bnd : Loc → List Ability} {o i : Nat} {t : Ty} {l : List Ability}
    (h : t.abilities (worldOf decl bnd) = some l) :
    abilityCheck (worldOf decl bnd) false (.withOrigin o i) t =
      if (bnd o).all fun a => decide (a ∈ l) then none else some (.ability ((bnd o).filter fun a => decide (a ∉ l))) := by
  unfold abilityCheck
  have hb : (worldOf decl bnd).bounds o = some (bnd o) := rfl
  simp only [h, hb, Bool.false_eq_true, if_false]
  by_cases hall : ∀ a ∈ bnd o, a ∈ l
  · have h1 : ((bnd o).filter fun a => decide (a ∉ l)) = [] := List.filter_eq_nil_iff.2 fun a ha => by simpa using hall a ha
    rw [h1]
    simpa using hall
  · have h1 : ((bnd o).filter fun a => decide (a ∉ l)) ≠ [] := by
      intro h2
      exact hall fun a ha => by simpa using List.filter_eq_nil_iff.1 h2 a ha
    have h2 : ¬ ((bnd o).all fun a => decide (a ∈ l)) = true := by simpa using hall
    rw [if_neg h2, if_neg (by rw [List.isEmpty_iff]; exact h1)]

theorem exact_shape {decl bnd : Loc → List Ability} {t : Ty} (h : Exact decl bnd t) :
    (∀ v, t ≠ .var v) ∧ (∀ i, t ≠ .intVar i) ∧ t.singleElement = none := by
  cases t <;> first | exact (h : False).elim | exact ⟨(by intro v h; cases h), (by intro v h; cases h), rfl⟩

/-- **C39 (type arguments; partial).** In Move code a type given for a type parameter that has not been determined yet is
accepted exactly if it has all abilities the parameter asks for; otherwise the error names exactly the abilities that are
missing, in the order of the declaration. References are rejected in any case. Missing: the types for which the computed
abilities are wrong (see `C39_exact_partial`). -/
theorem C39_argument_partial (decl bnd : Loc → List Ability) {c : Ctx} (hc : c.Wf) (hm : c.msl = false) {o i : Nat}
    (hv : c.vars.mapping.value (.withOrigin o i) = .ok none) {t : Ty} (hk : Known t) (he : Exact decl bnd t) (hr : t.isRef = false)
    (fuel : Nat) : ∃ c' r, combine (worldOf decl bnd) (fuel + 1) c (.var (.withOrigin o i)) t = .ok (c', r) ∧
      (r = none ↔ ∀ a ∈ bnd o, Has decl bnd a t) ∧
      (r ≠ none → ∃ missing, r = some (.ability missing) ∧ List.Sublist missing (bnd o) ∧ ∀ a, a ∈ missing ↔ a ∈ bnd o ∧ ¬ Has decl bnd a t) := by
  obtain ⟨l, h1, h2⟩ := C39_exact_partial decl bnd t he
  obtain ⟨s1, s2, s3⟩ := exact_shape he
  have hp : prepareActual c.msl (.var (.withOrigin o i)) t = t := by
    unfold prepareActual
    rw [hm]
    simp only [Ty.refineForSpecs]
    simp [s3]
  have hs : c.shallow t = .ok t := by
    cases t <;> first | rfl | exact absurd rfl (s1 _) | exact absurd rfl (s2 _)
  have hs' : c.shallow (.var (.withOrigin o i)) = .ok (.var (.withOrigin o i)) := by
    unfold Ctx.shallow Ctx.resolveInfer
    simp only [hv]
  obtain ⟨r, n, hr', -⟩ := hc.vars.root (.withOrigin o i)
  have hvr : c.vars.mapping.value r = .ok none := by
    rw [value_of_root (hc.vars.root_root hr'), ← value_of_root hr']; exact hv
  obtain ⟨m', h3, -⟩ := bind_free hc.vars t hvr
  have hu : unifyTyVar (worldOf decl bnd) c (.withOrigin o i) t =
      .ok ({ c with vars := { c.vars with mapping := m' } }, abilityCheck (worldOf decl bnd) c.msl (.withOrigin o i) t) := by
    unfold unifyTyVar
    simp only
    split
    · rename_i hb
      rw [hr] at hb
      cases hb
    · simp only [hr', containsVar_known hk.infers, h3, Ctx.setVars]
  refine ⟨{ c with vars := { c.vars with mapping := m' } }, abilityCheck (worldOf decl bnd) c.msl (.withOrigin o i) t, ?_, ?_⟩
  · unfold combine
    simp only [refine_var, hp, hs, hs', combineDispatch]
    exact hu
  · rw [hm, abilityCheck_code h1]
    by_cases hall : ∀ a ∈ bnd o, a ∈ l
    · rw [if_pos (by simpa using hall)]
      exact ⟨⟨fun _ a ha => (h2 a).1 (hall a ha), fun _ => rfl⟩, fun h => absurd rfl h⟩
    · rw [if_neg (by simpa using hall)]
      refine ⟨⟨fun h => (by cases h), fun h => absurd (fun a ha => (h2 a).2 (h a ha)) hall⟩, fun _ => ⟨_, rfl, List.filter_sublist, ?_⟩⟩
      intro a
      rw [List.mem_filter, decide_eq_true_iff, h2]

/-- **C39 (specifications).** In a specification abilities are not checked: every type is accepted. -/
theorem C39_spec_argument (w : World) {c : Ctx} (hc : c.Wf) (hm : c.msl = true) {v : TyVar}
    (hv : c.vars.mapping.value v = .ok none) {t : Ty} (hk : Known t) (hs1 : ∀ u, t.unwrapAllRefs ≠ .tuple [u])
    (fuel : Nat) : ∃ c', combine w (fuel + 1) c (.var v) t = .ok (c', none) := by
  have hnoref : t.unwrapAllRefs.isRef = false := by
    fun_induction Ty.unwrapAllRefs t with
    | case1 t m ih => exact ih (Ty.All.child hk (by simp [Ty.children])) hs1
    | case2 t h => cases t <;> first | rfl | exact absurd rfl (h _ _)
  have hp : prepareActual true (.var v) t = t.refineForSpecs true ∧ (t.refineForSpecs true).isRef = false := by
    have h1 : (t.refineForSpecs true).singleElement = none ∧ (t.refineForSpecs true).isRef = false := by
      rw [refineForSpecs_eq]
      generalize t.unwrapAllRefs = u at hnoref hs1
      cases u with
      | tuple l =>
        refine ⟨?_, rfl⟩
        match l with
        | [] => rfl
        | [x] => exact absurd rfl (hs1 x)
        | _ :: _ :: _ => rfl
      | ref u m => cases hnoref
      | _ => exact ⟨rfl, rfl⟩
    refine ⟨?_, h1.2⟩
    unfold prepareActual
    simp only [h1.1]
  have hk' := hk.refine true
  obtain ⟨t', h1, h2, h3, h4⟩ := shallow_spec hc (t.refineForSpecs true)
  have ht' : Known t' ∧ t'.isRef = false := by
    rcases h4 hk'.noVar with rfl | ⟨k, i, -, rfl⟩
    · exact ⟨hk', hp.2⟩
    · exact ⟨known_integer k, rfl⟩
  have hs' : c.shallow (.var v) = .ok (.var v) := by
    unfold Ctx.shallow Ctx.resolveInfer
    simp only [hv]
  obtain ⟨r, n, hr', -⟩ := hc.vars.root v
  have hvr : c.vars.mapping.value r = .ok none := by
    rw [value_of_root (hc.vars.root_root hr'), ← value_of_root hr']; exact hv
  obtain ⟨m', h5, -⟩ := bind_free hc.vars t' hvr
  refine ⟨{ c with vars := { c.vars with mapping := m' } }, ?_⟩
  have habil : abilityCheck w true v t' = none := by
    unfold abilityCheck
    split <;> simp
  unfold combine
  simp only [refine_var, hm, hp.1, h1, hs', combineDispatch]
  unfold unifyTyVar
  simp only
  split
  · rename_i u
    exact absurd rfl (ht'.1.noVar u)
  · simp only [ht'.2, Bool.false_and, Bool.false_eq_true, if_false, hr', containsVar_known ht'.1.infers, h5, Ctx.setVars, hm, habil]

example : Known (.adt 0 [] [] []) ∧ Exact (fun _ => [.Copy]) (fun _ => [.Copy, .Key]) (.adt 0 [] [] []) ∧
    (Ctx.new false).vars.mapping.value (.withOrigin 0 0) = .ok none :=
  ⟨.intro ⟨(by intro v h; cases h), (by intro h; cases h)⟩ (by intro u hu; simp [Ty.children] at hu), rfl, rfl⟩

/-- A struct with `copy` for a parameter `T: copy + key`: the error names `key`. -/
example : ∃ c', combine (worldOf (fun _ => [.Copy]) (fun _ => [.Copy, .Key])) 1 (Ctx.new false) (.var (.withOrigin 0 0)) (.adt 0 [] [] []) =
    .ok (c', some (.ability [.Key])) := ⟨_, rfl⟩

end Verif.Types
