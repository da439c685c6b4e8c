import Verif.Ide.Unresolved

/-! C79: what is reported as unresolved, and what is not. -/

namespace Verif.Ide.Unresolved
open Verif Verif.Syntax Verif.Nameres
open Verif.Parser (Green)
open Verif.Ide.Rename (exprKinds)
open Verif.Ide.Usages (Parsed parseOf parseOf_parsed)
open Verif.Ide.Counts (First nodeChild_iff childOf_iff Lacks lacks_iff around around_chain)
open Verif.Nameres.Full (Is isNode_iff nodeChild_mem groupAround_none groupAround_cons)

/-! ### Specification -/

/-- Every part of a path ends in a word, except that the first part can be an address. -/
def Whole (s : List Elem) : Prop :=
  ∀ p anc, Part s (p :: anc) → (∃ n, Word (p :: anc) n) ∨
    Lacks .PATH p ∧ ∃ seg a, First [.PATH_SEGMENT] p seg ∧ First [.PATH_ADDRESS] seg a

/-- Part of the path, and not all of it. -/
def Before (s t : List Elem) : Prop := Part s t ∧ t ≠ s

/-- The kinds of references that are checked and are not paths. -/
def Member (e : Elem) : Prop := Is .METHOD_CALL_EXPR e ∨ Is .DOT_EXPR e ∨ Is .STRUCT_LIT_FIELD e ∨ Is .STRUCT_PAT_FIELD e

/-! ### Proofs -/

theorem checkPath_some {c : Ctx} {p : Elem} {anc : List Elem} {r : Report} (h : checkPath c p anc = some r) :
    kindAt anc 0 ≠ some .PATH ∧ walk c (parts p anc) = some r := by
  unfold checkPath at h
  split at h
  · cases h
  · rename_i h0
    split at h
    · cases h
    · split at h
      · cases h
      · split at h
        · cases h
        · split at h
          · cases h
          · exact ⟨h0, h⟩

theorem check_some {c : Ctx} {e : Elem} {anc : List Elem} {r : Report} (h : check c (e :: anc) = some r) :
    (Is .PATH e ∧ checkPath c e anc = some r) ∨ (Member e ∧ tryCheck c (e :: anc) = some r) := by
  unfold check at h
  dsimp only at h
  split at h
  · cases h
  · split at h
    · rename_i h1
      exact .inl ⟨(isNode_iff _ _).1 h1, h⟩
    · split at h
      · rename_i h1
        simp only [Bool.or_eq_true, isNode_iff] at h1
        split at h
        · exact .inr ⟨h1.elim .inl fun h => .inr (.inl h), h⟩
        · cases h
      · split at h
        · rename_i h1
          simp only [Bool.or_eq_true, isNode_iff] at h1
          exact .inr ⟨h1.elim (fun h => .inr (.inr (.inl h))) fun h => .inr (.inr (.inr h)), h⟩
        · cases h

/-- Where the report is. -/
theorem check_site {c : Ctx} {e : Elem} {anc : List Elem} {r : Report} (h : check c (e :: anc) = some r) :
    ∃ s, Part (e :: anc) s ∧ tryCheck c s = some r ∧ ((Is .PATH e ∧ kindAt anc 0 ≠ some .PATH ∧ ¬ Address c s ∧
        (∀ q, Needs c s q → (visible c q).length = 1) ∧
        ∀ t, Before s t → Address c t ∨ tryCheck c t = none) ∨ (Member e ∧ s = e :: anc)) := by
  rcases check_some h with ⟨hp, h⟩ | ⟨hm, h⟩
  · obtain ⟨h0, h⟩ := checkPath_some h
    obtain ⟨a, s, b, h1, h2, h3, -, h5, h6⟩ := walk_some h
    obtain ⟨h7, h8⟩ := parts_split _ hp (by omega) h1
    refine ⟨s, h7, h2, .inl ⟨hp, h0, h3, h5, fun t ht => ?_⟩⟩
    rcases (h8 t).1 ht.1 with h9 | h9
    · exact absurd h9 ht.2
    · exact h6 t h9
  · exact ⟨_, .whole, h, .inr ⟨hm, rfl⟩⟩

theorem site_word {e : Elem} {anc s : List Elem} {n : Elem} (hk : Is .PATH e ∨ Member e ∧ s = e :: anc) (hs : Part (e :: anc) s)
    (hn : nameNode s = some n) : Word s n := by
  rcases hk with hp | ⟨hm, rfl⟩
  · obtain ⟨q, m, rfl, hq⟩ := hs.isPath hp
    exact (word_path hq).1 hn
  · exact (word_member hm).1 hn

/-- **C79 (true).** What is reported is a word of the reference that does not mean exactly one thing that can be used there; a name
that stands for a field and for the variable of the same name is in order. The report has the name and the range of that word. No
part of a path is reported that is an address or could be one. -/
theorem C79_true {c : Ctx} {e : Elem} {anc : List Elem} {r : Report} (h : check c (e :: anc) = some r) :
    ∃ s n, Part (e :: anc) s ∧ Word s n ∧ r.name = nameRefText n ∧ r.range = (n.start, n.stop) ∧ ¬ Fine c s ∧
      (Is .PATH e → ¬ Address c s) := by
  obtain ⟨s, h1, h2, h3⟩ := check_site h
  obtain ⟨n, h4, h5, h6, h7⟩ := tryCheck_some h2
  have hw : Word s n := site_word (h3.imp (·.1) fun h => h) h1 h4
  refine ⟨s, n, h1, hw, h5, h6, h7, fun hp => ?_⟩
  rcases h3 with ⟨-, -, h3, -⟩ | ⟨hm, rfl⟩
  · exact h3
  · have := hp.2
    rcases hm with h | h | h | h <;> (rw [h.2] at this; cases this)

theorem word_unique {s : List Elem} {n m : Elem} (hn : Word s n) (hm : Word s m) : n = m := by
  have key : ∀ k, Word s k → nameNode s = some k := fun k hk => by
    cases hk with
    | path h1 h2 h3 => exact (word_path h1).2 (.path h1 h2 h3)
    | member h1 h2 => exact (word_member h1).2 (.member h1 h2)
  have := (key n hn).symm.trans (key m hm)
  cases this
  rfl

/-- **C79 (first).** Of a path at most one part is reported, and everything before it is an address or in order. What comes after it
is not looked at. -/
theorem C79_first {c : Ctx} {p : Elem} {anc : List Elem} {r : Report} (hp : Is .PATH p) (h : check c (p :: anc) = some r) :
    ∃ s n, Part (p :: anc) s ∧ Word s n ∧ r.range = (n.start, n.stop) ∧ ¬ Fine c s ∧
      ∀ t m, Before s t → Word t m → Address c t ∨ Fine c t := by
  obtain ⟨s, h1, h2, h3⟩ := check_site h
  obtain ⟨n, h4, h5, h6, h7⟩ := tryCheck_some h2
  refine ⟨s, n, h1, site_word (h3.imp (·.1) fun h => h) h1 h4, h6, h7, fun t m ht hm => ?_⟩
  rcases h3 with ⟨-, -, -, -, h3⟩ | ⟨hm, -⟩
  · rcases h3 t ht with h8 | h8
    · exact .inl h8
    · obtain ⟨q, l, rfl, hq⟩ := (h1.trans ht.1).isPath hp
      exact .inr ((tryCheck_none ((word_path hq).2 hm)).1 h8)
  · have := hp.2
    rcases hm with h | h | h | h <;> (rw [h.2] at this; cases this)

/-! #### What is not exempt -/

theorem opOf_spec {b : Elem} {k : SyntaxKind} (h : opOf b = some k) : FirstOp b k := by
  unfold opOf at h
  rw [Option.map_eq_some_iff] at h
  obtain ⟨o, h1, h2⟩ := h
  rw [List.find?_eq_some_iff_append] at h1
  obtain ⟨h3, pre, post, h4, h5⟩ := h1
  simp only [Bool.and_eq_true, List.contains_iff_mem] at h3
  refine ⟨pre, o, post, h4, h3.1, h2, h2 ▸ h3.2, fun x hx ht hb => ?_⟩
  have := h5 x hx
  simp [ht, hb] at this

theorem spec_opOf {b : Elem} {k : SyntaxKind} (h : FirstOp b k) : opOf b = some k := by
  obtain ⟨pre, o, post, h1, h2, rfl, h4, h5⟩ := h
  unfold opOf
  rw [Option.map_eq_some_iff]
  refine ⟨o, List.find?_eq_some_iff_append.2 ⟨by simp [h2, h4], pre, post, h1, fun x hx => ?_⟩, rfl⟩
  cases h6 : x.green.isTok
  · simp
  · simp [h5 x hx h6]

theorem special_iff {c : Ctx} {e : Elem} {anc : List Elem} (hm : isMslContext (e :: anc) = true) (h0 : kindAt anc 0 ≠ some .PATH)
    (ht : ∀ a ∈ anc, a.green.isTok = false) (he : Is .PATH e ∨ e.kind ≠ .PATH) (h : special c e anc = true) : Exempt c (e :: anc) := by
  unfold special at h
  simp only [Bool.or_eq_true, List.any_eq_true, isNode_iff, Bool.and_eq_true, decide_eq_true_eq, List.isPrefixOf_iff_prefix] at h
  rcases h with ((⟨a, h1, h2⟩ | ⟨a, h1, h2, h3⟩) | ⟨a, h1, h2⟩) | ⟨⟨h1, h2⟩, h3⟩
  · exact .include_ hm h1 h2
  · exact .update hm h1 h2 h3
  · exact .pragma hm h1 h2
  · cases anc with
    | nil => simp [rootPath, kindAt] at h2
    | cons x l =>
      have hr : rootPath (e :: x :: l) = e :: x :: l := by
        unfold rootPath
        rw [if_neg]
        intro h4
        exact h0 (by simp [kindAt, ((isNode_iff _ _).1 h4).2])
      rw [hr] at h2 h3
      have hx : x.kind = .PATH_EXPR := by simpa [kindAt] using h2
      exact .result hm (he.elim id fun h => absurd h1 h) ⟨ht x (by simp), hx⟩ h3

/-- A path that is not left out of the check is looked at from its beginning. -/
theorem check_path {c : Ctx} {p : Elem} {anc : List Elem} {n : Elem} (hp : Is .PATH p) (hw : Word (p :: anc) n)
    (ht : ∀ a ∈ anc, a.green.isTok = false) (h0 : kindAt anc 0 ≠ some .PATH) (hx : ¬ Exempt c (p :: anc)) :
    check c (p :: anc) = walk c (parts p anc) := by
  have hn := (word_path hp).2 hw
  unfold nameNode at hn
  dsimp only at hn
  rw [if_pos hp.2] at hn
  unfold check
  dsimp only
  rw [if_neg, if_pos ((isNode_iff _ _).2 hp)]
  · unfold checkPath
    rw [if_neg h0]
    have hr : refName p = some (nameRefText n) := by unfold refName; rw [hn]; rfl
    rw [hr]
    dsimp only
    rw [if_neg, if_neg, if_neg]
    · simp only [List.any_eq_true, isNode_iff, not_exists]
      exact fun a ha => hx (.attr hp ha.1 ha.2)
    · simp only [Bool.and_eq_true, decide_eq_true_eq, List.contains_iff_mem]
      rintro ⟨h1, h2⟩
      cases anc with
      | nil => cases h1
      | cons t l => exact hx (.primitive hp (by simpa [kindAt] using h1) hw ((builtin_iff _).1 h2))
    · simp only [Bool.and_eq_true, decide_eq_true_eq]
      rintro ⟨h1, h2⟩
      unfold inLhs at h2
      simp only [List.any_eq_true, Bool.and_eq_true, isNode_iff, Option.any_eq_true, decide_eq_true_eq, List.contains_iff_mem] at h2
      obtain ⟨b, hb, ⟨h3, k, h4, h5⟩, lhs, h6, a, h7, h8⟩ := h2
      exact hx (.anything hp hw h1 hb h3 (opOf_spec h4) h5 (childOf_iff.1 h6) (List.mem_map.2 ⟨a, h7, h8⟩))
  · simp only [Bool.and_eq_true, not_and]
    exact fun h1 h2 => hx (special_iff h1 h0 ht (.inl hp) h2)

/-- **C79 (exempt).** What is exempt is not reported. -/
theorem C79_exempt {c : Ctx} {e : Elem} {anc : List Elem} (h : Exempt c (e :: anc)) : check c (e :: anc) = none := by
  have msl : ∀ {e anc}, isMslContext (e :: anc) = true → special c e anc = true → check c (e :: anc) = none := fun h1 h2 => by
    unfold check
    dsimp only
    rw [if_pos (by simp [h1, h2])]
  have path : ∀ {e anc}, Is .PATH e → checkPath c e anc = none → check c (e :: anc) = none := fun h1 h2 => by
    unfold check
    dsimp only
    split
    · rfl
    · rw [if_pos ((isNode_iff _ _).2 h1), h2]
  have name : ∀ {p anc n}, Is .PATH p → Word (p :: anc) n → refName p = some (nameRefText n) := fun {p anc n} h1 h2 => by
    have hn := (word_path h1).2 h2
    unfold nameNode at hn
    dsimp only at hn
    rw [if_pos h1.2] at hn
    unfold refName
    rw [hn]
    rfl
  cases h with
  | include_ h1 h2 h3 =>
    refine msl h1 ?_
    unfold special
    rw [List.any_eq_true.2 ⟨_, h2, (isNode_iff _ _).2 h3⟩]
    simp
  | pragma h1 h2 h3 =>
    refine msl h1 ?_
    unfold special
    rw [List.any_eq_true.2 (⟨_, h2, (isNode_iff _ _).2 h3⟩ : ∃ x ∈ anc, isNode .PRAGMA_STMT x = true)]
    simp
  | update h1 h2 h3 h4 =>
    refine msl h1 ?_
    unfold special
    have : ((e :: anc).any fun x => isNode .CALL_EXPR x && "update_field".toList.isPrefixOf x.green.text) = true :=
      List.any_eq_true.2 ⟨_, h2, by rw [(isNode_iff _ _).2 h3, List.isPrefixOf_iff_prefix.2 h4]; rfl⟩
    rw [this]
    simp
  | @result p x l h1 h2 h3 h4 =>
    refine msl h1 ?_
    have hr : rootPath (e :: x :: l) = e :: x :: l := by
      unfold rootPath
      rw [if_neg]
      intro h5
      have := ((isNode_iff _ _).1 h5).2
      rw [h3.2] at this
      cases this
    unfold special
    rw [hr]
    simp [h2.2, kindAt, h3.2, h4]
  | attr h1 h2 h3 =>
    refine path h1 ?_
    unfold checkPath
    have : anc.any (isNode .ATTR_ITEM) = true := List.any_eq_true.2 ⟨_, h2, (isNode_iff _ _).2 h3⟩
    rw [this]
    split
    · rfl
    · split
      · rfl
      · simp
  | primitive h1 h2 h3 h4 =>
    refine path h1 ?_
    unfold checkPath
    rw [name h1 h3]
    dsimp only
    split
    · rfl
    · split
      · rfl
      · rw [if_pos]
        simp only [Bool.and_eq_true, decide_eq_true_eq, List.contains_iff_mem]
        exact ⟨by simp [kindAt, h2], (builtin_iff _).2 h4⟩
  | anything h1 h2 h3 h4 h5 h6 h7 h8 h9 =>
    refine path h1 ?_
    unfold checkPath
    rw [name h1 h2]
    dsimp only
    split
    · rfl
    · rw [if_pos]
      simp only [Bool.and_eq_true, decide_eq_true_eq]
      refine ⟨h3, ?_⟩
      unfold inLhs
      simp only [List.any_eq_true, Bool.and_eq_true, isNode_iff, Option.any_eq_true, decide_eq_true_eq, List.contains_iff_mem]
      obtain ⟨a, ha, hl⟩ := List.mem_map.1 h9
      exact ⟨_, h4, ⟨h5, _, spec_opOf h6, h7⟩, _, childOf_iff.2 h8, a, ha, hl⟩

/-! #### Qualifiers -/

theorem whole_addr {p : Elem} {anc : List Elem} (hp : Is .PATH p)
    (h : (∃ n, Word (p :: anc) n) ∨ Lacks .PATH p ∧ ∃ seg a, First [.PATH_SEGMENT] p seg ∧ First [.PATH_ADDRESS] seg a) :
    pathAddress p = none → refName p ≠ none := by
  intro h1 h2
  rcases h with ⟨n, hn⟩ | ⟨-, seg, a, h3, h4⟩
  · have := (word_path hp).2 hn
    unfold nameNode at this
    dsimp only at this
    rw [if_pos hp.2] at this
    simp [refName, this] at h2
  · unfold pathAddress at h1
    rw [nodeChild_iff.2 h3] at h1
    simp only [Option.bind_some] at h1
    rw [nodeChild_iff.2 h4] at h1
    cases h1

theorem part_group {p : Elem} {anc s : List Elem} (hg : ∀ e ∈ anc, ¬ Is .USE_GROUP e) (h : Part (p :: anc) s) :
    ∀ e ∈ s.tail, ¬ Is .USE_GROUP e := by
  induction h with
  | whole => exact hg
  | before h1 h2 h3 ih =>
    intro e he
    rcases List.mem_cons.1 he with h4 | h4
    · rw [h4]
      intro h5
      have := h5.2
      rw [h2.2] at this
      cases this
    · exact ih e h4

/-- Outside of a group every part of a whole path has a kind. -/
theorem kind_some {named : List Char → Bool} {p : Elem} {anc : List Elem} (hp : Is .PATH p) (ha : anc ≠ [])
    (hg : ∀ e ∈ anc, ¬ Is .USE_GROUP e) (hw : Whole (p :: anc)) : pathKind named (p :: anc) ≠ none := by
  intro h
  unfold pathKind at h
  dsimp only at h
  rw [groupAround_none hg] at h
  dsimp only at h
  rw [if_neg (by simpa using ha)] at h
  split at h
  · split at h
    · cases h
    · rename_i h1
      split at h
      · rename_i h2
        exact whole_addr hp (hw _ _ .whole) h1 h2
      · split at h
        · cases h
        · split at h
          · cases h
          · split at h
            · cases h
            · split at h <;> cases h
  · rename_i q hq
    unfold qualifierOf at hq
    dsimp only at hq
    rw [Option.map_eq_some_iff] at hq
    obtain ⟨x, hx, rfl⟩ := hq
    split at h
    · split at h
      · cases h
      · rename_i h1
        split at h
        · rename_i h2
          exact whole_addr (nodeChild_mem hx).2 (hw _ _ (.before .whole hp (nodeChild_iff.1 hx))) (by simpa using h1) (by simpa using h2)
        · split at h
          · cases h
          · split at h
            · cases h
            · split at h <;> cases h
    · split at h <;> cases h

/-- Outside of a group, a qualifier that is asked for is the part before, and it is not an address. -/
theorem needs_part {c : Ctx} {p : Elem} {anc q : List Elem} (hp : Is .PATH p) (hg : ∀ e ∈ anc, ¬ Is .USE_GROUP e)
    (h : Needs c (p :: anc) q) : ∃ x, First [.PATH] p x ∧ q = x :: p :: anc ∧ ¬ Address c q ∧
      (nodeChild x .PATH = none → refName x ≠ none) := by
  obtain ⟨ns, k, h, hk⟩ := h
  unfold pathKind at h
  dsimp only at h
  rw [groupAround_none hg] at h
  dsimp only at h
  split at h
  · cases h
  · split at h
    · split at h
      · cases h
      · split at h
        · cases h
        · split at h
          · cases h
          · split at h
            · cases h
            · split at h
              · cases h
              · split at h <;> cases h
    · rename_i q' hq
      unfold qualifierOf at hq
      dsimp only at hq
      rw [Option.map_eq_some_iff] at hq
      obtain ⟨x, hx, rfl⟩ := hq
      have hx2 := nodeChild_mem hx
      have hg2 : groupAround (p :: anc) = none := groupAround_cons ((isNode_iff _ _).2 hp) (groupAround_none hg)
      have hroot : rootPath (x :: p :: anc) = rootPath (p :: anc) := by
        conv_lhs => unfold rootPath
        rw [if_pos ((isNode_iff _ _).2 hp)]
      split at h
      · rename_i hb
        have hb2 : nodeChild x .PATH = none := by simpa [qualifierOf] using hb
        split at h
        · cases h
          rcases hk with hk | hk | hk <;> cases hk
        · rename_i ha
          have ha2 : pathAddress x = none := by simpa using ha
          split at h
          · cases h
          · rename_i w hw
            have hw2 : refName x = some w := by simpa using hw
            split at h
            · cases h
              rcases hk with hk | hk | hk <;> cases hk
            · rename_i hu
              simp only [Bool.or_eq_true, decide_eq_true_eq, not_or] at hu
              split at h
              · cases h
                rcases hk with hk | hk | hk <;> cases hk
              · rename_i hnm
                split at h
                · cases h
                  rcases hk with hk | hk | hk <;> cases hk
                · cases h
                  refine ⟨x, nodeChild_iff.1 hx, rfl, ?_, fun _ => by rw [hw2]; simp⟩
                  have hrk : rootParentKind (x :: p :: anc) = rootParentKind (p :: anc) := by unfold rootParentKind; rw [hroot]
                  have hkind : ∀ k', pathKind c.named (x :: p :: anc) = some k' → (∃ f, k' = .shorthand f) ∨ ∃ ns, k' = .unqualified ns := by
                    intro k' hk'
                    unfold pathKind at hk'
                    dsimp only at hk'
                    rw [hg2] at hk'
                    dsimp only at hk'
                    rw [if_neg (by simp), hb] at hk'
                    dsimp only at hk'
                    rw [ha2] at hk'
                    dsimp only at hk'
                    rw [hw2] at hk'
                    dsimp only at hk'
                    rw [if_neg (by rw [hrk]; simp [hu.1.1]), if_neg (by rw [hrk]; simp [hu.1.2, hu.2]), if_neg (by simp [hnm])] at hk'
                    split at hk'
                    · cases hk'; exact .inl ⟨_, rfl⟩
                    · cases hk'; exact .inr ⟨_, rfl⟩
                  rintro ⟨w', h1 | h1 | ⟨ns', h1⟩⟩ <;> (rcases hkind _ h1 with ⟨f, h2⟩ | ⟨f, h2⟩ <;> cases h2)
      · rename_i q2 hb
        have hb2 : nodeChild x .PATH ≠ none := by
          intro h'
          simp [qualifierOf, h'] at hb
        have hq : q = x :: p :: anc := by
          split at h <;> (cases h; rfl)
        refine ⟨x, nodeChild_iff.1 hx, hq, ?_, fun h' => absurd h' hb2⟩
        rw [hq]
        have hkind : ∀ k', pathKind c.named (x :: p :: anc) = some k' → ∃ a b d, k' = .qualified a b d := by
          intro k' hk'
          unfold pathKind at hk'
          dsimp only at hk'
          rw [hg2] at hk'
          dsimp only at hk'
          rw [if_neg (by simp), hb] at hk'
          dsimp only at hk'
          split at hk'
          · split at hk'
            · cases hk'; exact ⟨_, _, _, rfl⟩
            · split at hk'
              · cases hk'
              · split at hk'
                · cases hk'; exact ⟨_, _, _, rfl⟩
                · split at hk'
                  · cases hk'; exact ⟨_, _, _, rfl⟩
                  · split at hk' <;> (cases hk'; exact ⟨_, _, _, rfl⟩)
          · split at hk' <;> (cases hk'; exact ⟨_, _, _, rfl⟩)
        rintro ⟨w', h1 | h1 | ⟨ns', h1⟩⟩ <;> (obtain ⟨a, b, d, h2⟩ := hkind _ h1; cases h2)

/-- **C79 (silent).** If nothing is reported for a path that is not exempt, then every part of it is an address or in order. The path
is not in a group of a `use`, it is whole, and no part before the last is both a field and a variable. Missing: what is exempt, although
it should not be. -/
theorem C79_silent_partial {c : Ctx} {p : Elem} {anc : List Elem} (hp : Is .PATH p) (ha : anc ≠ [])
    (ht : ∀ a ∈ anc, a.green.isTok = false) (h0 : kindAt anc 0 ≠ some .PATH) (hg : ∀ e ∈ anc, ¬ Is .USE_GROUP e)
    (hw : Whole (p :: anc)) (hx : ¬ Exempt c (p :: anc)) (hb : ∀ t, Before (p :: anc) t → ¬ Both c t) {n : Elem} (hn : Word (p :: anc) n)
    (h : check c (p :: anc) = none) : ∀ t m, Part (p :: anc) t → Word t m → Address c t ∨ Fine c t := by
  rw [check_path hp hn ht h0 hx] at h
  have fine : ∀ t m, Part (p :: anc) t → Word t m → (Address c t ∨ tryCheck c t = none) → Address c t ∨ Fine c t :=
    fun t m h1 h2 h3 => by
      rcases h3 with h3 | h3
      · exact .inl h3
      · obtain ⟨q, l, rfl, hq⟩ := h1.isPath hp
        exact .inr ((tryCheck_none ((word_path hq).2 h2)).1 h3)
  rcases walk_none h with h1 | ⟨a, s, b, h1, h2, h3⟩
  · exact fun t m h4 h5 => fine t m h4 h5 (h1 t ((mem_parts hp).2 h4))
  · obtain ⟨h4, h5⟩ := parts_split _ hp (by omega) h1
    obtain ⟨x, l, rfl, hx2⟩ := h4.isPath hp
    have hws : Whole (x :: l) := fun p' anc' h6 => hw p' anc' (h4.trans h6)
    have hgs : ∀ e ∈ l, ¬ Is .USE_GROUP e := part_group hg h4
    have hl : l ≠ [] := by
      have := h4.length.1
      intro h6
      rw [h6] at this
      simp only [List.length_cons, List.length_nil] at this
      exact ha (List.length_eq_zero_iff.1 (by omega))
    rcases h3 with h3 | ⟨q, h3, h6⟩
    · exact absurd h3 (kind_some hx2 hl hgs hws)
    · obtain ⟨y, h7, rfl, h8, h9⟩ := needs_part hx2 hgs h3
      have hpart : Part (x :: l) (y :: x :: l) := .before .whole hx2 h7
      have hy := (nodeChild_mem (nodeChild_iff.2 h7)).2
      have hword : ∃ m, Word (y :: x :: l) m := by
        rcases hws _ _ hpart with h10 | ⟨h10, -⟩
        · exact h10
        · have h11 := h9 (lacks_iff.2 h10)
          unfold refName at h11
          cases h12 : pathNameRef y with
          | none => rw [h12] at h11; exact absurd rfl h11
          | some m => exact ⟨m, (word_path hy).1 (by unfold nameNode; dsimp only; rw [if_pos hy.2, h12])⟩
      obtain ⟨m, hm⟩ := hword
      have hmem : (y :: x :: l) ∈ a := by
        rcases (h5 _).1 hpart with h10 | h10
        · have := congrArg List.length h10
          simp at this
        · exact h10
      rcases fine _ m (h4.trans hpart) hm (h2 _ hmem) with h10 | h10 | h10
      · exact absurd h10 h8
      · exact absurd (visible_single.1 h10) h6
      · refine absurd h10 (hb _ ⟨h4.trans hpart, fun h11 => ?_⟩)
        have h12 := h4.length.1
        rw [← h11] at h12
        simp at h12

/-- **C79 (group).** If nothing is reported for a name in a group of a `use`, then it is in order, or what is before the group does
not mean exactly one thing. -/
theorem C79_group {c : Ctx} {p : Elem} {anc : List Elem} (hp : Is .PATH p) (ht : ∀ a ∈ anc, a.green.isTok = false)
    (h0 : kindAt anc 0 ≠ some .PATH) (hx : ¬ Exempt c (p :: anc)) {n : Elem} (hn : Word (p :: anc) n) {pre rest : List Elem}
    {g sp q : Elem} (ha : anc = pre ++ g :: sp :: rest) (hpre : ∀ e ∈ pre, ¬ Is .USE_GROUP e) (hg : Is .USE_GROUP g)
    (hs : Is .USE_SPECK sp) (hq : First [.PATH] sp q) (hone : Lacks .PATH p) :
    check c (p :: anc) = none ↔ (∃ e, Means c (q :: sp :: rest) e) → Fine c (p :: anc) := by
  have hparts : parts p anc = [p :: anc] := by
    unfold parts partsIn
    rw [lacks_iff.2 hone]
  have hgr : groupAround anc = some (g :: sp :: rest) := by
    unfold groupAround
    have : anc.dropWhile (fun e => !isNode .USE_GROUP e) = g :: sp :: rest := by
      rw [ha, List.dropWhile_append_of_pos]
      · rw [List.dropWhile_cons_of_neg (by simp [(isNode_iff _ _).2 hg])]
      · intro e he
        have := hpre e he
        rw [← isNode_iff] at this
        simpa using this
    rw [this]
  have hk : pathKind c.named (p :: anc) = some (.qualified (q :: sp :: rest) (nsImportable ++ nsModules) .groupItem) := by
    unfold pathKind
    dsimp only
    rw [hgr]
    dsimp only
    rw [if_pos ((isNode_iff _ _).2 hs), nodeChild_iff.2 hq]
    rfl
  rw [check_path hp hn ht h0 hx, hparts, visible_single]
  unfold walk
  rw [hk]
  dsimp only
  have h1 := tryCheck_none (c := c) ((word_path hp).2 hn)
  split
  · rename_i h2
    rw [← h1]
    simp only [h2, forall_const]
    split
    · rename_i r h3
      simp [h3]
    · rename_i h3
      simp [h3, walk]
  · rename_i h2
    simp [h2]

/-- **C79 (members).** A field or a method that is not exempt, with a receiver of a known type, and a field of a literal or of a
pattern with a colon, is reported unless it is in order. -/
theorem C79_members {c : Ctx} {e : Elem} {anc : List Elem} {n : Elem} (hm : Member e) (hn : Word (e :: anc) n)
    (hr : (Is .METHOD_CALL_EXPR e ∨ Is .DOT_EXPR e) → c.receiver (e :: anc) = true)
    (hx : isMslContext (e :: anc) = true → ∀ a ∈ e :: anc, ¬ Is .IMPLY_INCLUDE_EXPR a ∧ ¬ Is .PRAGMA_STMT a ∧
      ¬ (Is .CALL_EXPR a ∧ "update_field".toList <+: a.green.text)) :
    check c (e :: anc) = none ↔ Fine c (e :: anc) := by
  rw [← tryCheck_none ((word_member hm).2 hn)]
  have hk : e.kind ≠ .PATH := by rcases hm with h | h | h | h <;> (rw [h.2]; decide)
  have h1 : ¬ (isMslContext (e :: anc) && special c e anc) = true := by
    simp only [Bool.and_eq_true, not_and]
    intro h1 h2
    unfold special at h2
    simp only [Bool.or_eq_true, List.any_eq_true, isNode_iff, Bool.and_eq_true, decide_eq_true_eq, List.isPrefixOf_iff_prefix] at h2
    rcases h2 with ((⟨a, h2, h3⟩ | ⟨a, h2, h3⟩) | ⟨a, h2, h3⟩) | ⟨⟨h2, -⟩, -⟩
    · exact (hx h1 a (by simp [h2])).1 h3
    · exact (hx h1 a h2).2.2 h3
    · exact (hx h1 a (by simp [h2])).2.1 h3
    · exact hk h2
  unfold check
  dsimp only
  rw [if_neg h1, if_neg (by rw [isNode_iff]; exact fun h => hk h.2)]
  split
  · rename_i h2
    simp only [Bool.or_eq_true, isNode_iff] at h2
    rw [if_pos (hr h2)]
  · rename_i h2
    simp only [Bool.or_eq_true, isNode_iff, not_or] at h2
    rw [if_pos]
    simp only [Bool.or_eq_true, isNode_iff]
    rcases hm with h | h | h | h
    · exact absurd h h2.1
    · exact absurd h h2.2
    · exact .inl h
    · exact .inr h

/-- **C79 (unknown).** If the type of the receiver is not known, nothing is reported. -/
theorem C79_unknown {c : Ctx} {e : Elem} {anc : List Elem} (hm : Is .METHOD_CALL_EXPR e ∨ Is .DOT_EXPR e)
    (hr : c.receiver (e :: anc) = false) : check c (e :: anc) = none := by
  have hk : ¬ Is .PATH e := by rcases hm with h | h <;> exact fun h' => (by have := h'.2; rw [h.2] at this; cases this)
  unfold check
  dsimp only
  rw [if_neg (c := isNode .PATH e = true) (by rw [isNode_iff]; exact hk), if_pos (c := (_ || _) = true), hr]
  · simp
  · simpa only [Bool.or_eq_true, isNode_iff] using hm

/-- **C79 (message).** The message says that there is nothing only if nothing can be used there, and gives as a reason why something
cannot be used only what is the reason for the only thing with the name. It speaks of packages only if there are things from two of
them. -/
theorem C79_message {c : Ctx} {e : Elem} {anc : List Elem} {r : Report} (h : check c (e :: anc) = some r) :
    ∃ s, Part (e :: anc) s ∧ ¬ Fine c s ∧
      ((∃ note, r.message = .missing note) ↔ ∀ x ∈ c.res s, x.2 ≠ none) ∧
      (∀ why, r.message = .missing (.hidden why) ↔ why ≠ .unknown ∧ ∃ x, c.res s = [(x, some why)]) ∧
      (∀ ps, r.message = .missing (.packages ps) → ps = c.missing ∧ ps ≠ [] ∧ (c.res s).length ≠ 1) ∧
      (r.message = .duplicate ↔ ∃ x y, (x, none) ∈ c.res s ∧ (y, none) ∈ c.res s ∧ c.package x.file ≠ c.package y.file) := by
  obtain ⟨s, h1, h2, -⟩ := check_site h
  obtain ⟨n, h4, -, -, h7⟩ := tryCheck_some h2
  refine ⟨s, h1, h7, ?_⟩
  have hv : ∀ x, x ∈ visible c s ↔ (x, none) ∈ c.res s := fun x => by
    unfold visible
    simp only [List.mem_map, List.mem_filter]
    constructor
    · rintro ⟨⟨a, b⟩, ⟨h1, h2⟩, rfl⟩
      cases b with
      | none => exact h1
      | some _ => cases h2
    · exact fun h => ⟨_, ⟨h, rfl⟩, rfl⟩
  unfold tryCheck at h2
  rw [h4] at h2
  dsimp only at h2
  split at h2
  · rename_i he
    cases h2
    dsimp only
    have hno : ∀ x ∈ c.res s, x.2 ≠ none := fun x hx hx2 => by
      have : x.1 ∈ visible c s := (hv _).2 (by rw [← hx2]; exact hx)
      rw [he] at this
      cases this
    refine ⟨⟨fun _ => hno, fun _ => ⟨_, rfl⟩⟩, fun why => ?_, fun ps hps => ?_, ?_⟩
    · constructor
      · intro hw
        have hw : noteOf c (c.res s) = .hidden why := by simpa using hw
        unfold noteOf at hw
        split at hw
        · cases hw
        · rename_i hu hr
          cases hw
          exact ⟨hu, _, hr⟩
        · cases hw
        · split at hw <;> cases hw
      · rintro ⟨h1, x, h2⟩
        rw [h2]
        cases why with
        | unknown => exact absurd rfl h1
        | priv v => rfl
        | wrongScope v => rfl
    · have hps : noteOf c (c.res s) = .packages ps := by simpa using hps
      unfold noteOf at hps
      split at hps
      · cases hps
      · cases hps
      · cases hps
      · rename_i n1 n2 n3
        split at hps
        · cases hps
        · rename_i hm
          cases hps
          refine ⟨rfl, hm, fun hl => ?_⟩
          obtain ⟨⟨x, w⟩, hx⟩ := List.length_eq_one_iff.1 hl
          cases w with
          | none => exact n3 _ hx
          | some w => exact n2 _ _ hx
    · constructor
      · intro h'; cases h'
      · rintro ⟨x, y, h3, -⟩
        exact absurd rfl (hno _ h3)
  · cases h2
  · rename_i he hone
    split at h2
    · cases h2
    · cases h2
      dsimp only
      have hex : ∃ x, (x, none) ∈ c.res s := by
        cases hl : visible c s with
        | nil => exact absurd hl he
        | cons x l => exact ⟨x, (hv x).1 (by rw [hl]; simp)⟩
      obtain ⟨x0, hx0⟩ := hex
      refine ⟨⟨?_, fun h' => absurd rfl (h' _ hx0)⟩, fun why => ⟨?_, ?_⟩, fun ps hps => ?_, ?_⟩
      · rintro ⟨note, h'⟩
        split at h' <;> cases h'
      · intro h'
        split at h' <;> cases h'
      · rintro ⟨-, x, h'⟩
        rw [h'] at hx0
        simp at hx0
      · split at hps <;> cases hps
      · have hf : fromPackages c (visible c s) = true ↔
            ∃ x y, (x, none) ∈ c.res s ∧ (y, none) ∈ c.res s ∧ c.package x.file ≠ c.package y.file := by
          unfold fromPackages
          rw [List.any_eq_true]
          constructor
          · rintro ⟨x, h3, h4⟩
            obtain ⟨y, h5, h6⟩ := List.any_eq_true.1 h4
            exact ⟨x, y, (hv x).1 h3, (hv y).1 h5, of_decide_eq_true h6⟩
          · rintro ⟨x, y, h3, h4, h5⟩
            exact ⟨x, (hv x).2 h3, List.any_eq_true.2 ⟨y, (hv y).2 h4, decide_eq_true h5⟩⟩
        rw [← hf]
        cases fromPackages c (visible c s) <;> simp

/-! #### Once -/

theorem part_chain {g : Green} {s t : List Elem} (hs : Chain g s) (h : Part s t) : Chain g t := by
  induction h with
  | whole => exact hs
  | before _ _ h3 ih => exact .child ih h3.mem

theorem part_root {p : Elem} {anc s : List Elem} (h0 : kindAt anc 0 ≠ some .PATH) (h : Part (p :: anc) s) :
    rootPath s = p :: anc := by
  induction h with
  | whole =>
    cases anc with
    | nil => rfl
    | cons x l =>
      unfold rootPath
      rw [if_neg]
      intro h4
      exact h0 (by simp [kindAt, ((isNode_iff _ _).1 h4).2])
  | before _ h2 _ ih =>
    unfold rootPath
    rw [if_pos ((isNode_iff _ _).2 h2)]
    exact ih

theorem name_direct {g : Green} (hp : Parsed g) {n : Elem} {l : List Elem} (h : Chain g (n :: l)) (hk : n.kind = .NAME_REF) :
    Verif.Nameres.Locs.Direct n ∧ n.green.isTok = false := by
  obtain ⟨gr, debug, text, fuel, errs, h1, h2, h3, h4⟩ := hp
  rcases (Verif.Syntax.C72_names h1 h2 h3 h4 h).2 hk with ⟨w, hw⟩ | ⟨c, w, -, hw⟩
  · refine ⟨⟨⟨0 :: n.path, n.start, .tok .IDENT w⟩, ?_, .inl rfl⟩, by rw [hw]; rfl⟩
    simp [Elem.children, hw, Green.children, placed]
  · refine ⟨⟨⟨0 :: n.path, n.start, .tok .INT_NUMBER (c :: w)⟩, ?_, .inl rfl⟩, by rw [hw]; rfl⟩
    simp [Elem.children, hw, Green.children, placed]

/-- Where the word of a report is in the tree. -/
theorem word_site {g : Green} {c : Ctx} {e : Elem} {anc : List Elem} {r : Report} (hc : Chain g (e :: anc))
    (h : check c (e :: anc) = some r) : ∃ n up, Chain g (n :: up) ∧ n.kind = .NAME_REF ∧ r.range = (n.start, n.stop) ∧
      ((∃ s seg, up = seg :: s ∧ seg.kind = .PATH_SEGMENT ∧ rootPath s = e :: anc) ∨ (Member e ∧ up = e :: anc)) := by
  obtain ⟨s, h1, h2, h3⟩ := check_site h
  obtain ⟨n, h4, h5, h6, -⟩ := tryCheck_some h2
  have hw : Word s n := site_word (h3.imp (·.1) fun h => h) h1 h4
  have hs := part_chain hc h1
  rcases h3 with ⟨hp, h0, -⟩ | ⟨hm, rfl⟩
  · cases hw with
    | @path p seg _ l k1 k2 k3 =>
      exact ⟨n, _, .child (.child hs k2.mem) k3.mem, k3.kind, h6, .inl ⟨_, seg, rfl, k2.kind, part_root h0 h1⟩⟩
    | member k1 k2 =>
      obtain ⟨q, l, hq, hq2⟩ := h1.isPath hp
      cases hq
      have := hq2.2
      rcases k1 with h | h | h | h <;> (rw [h.2] at this; cases this)
  · cases hw with
    | path k1 _ _ =>
      have := k1.2
      rcases hm with h | h | h | h <;> (rw [h.2] at this; cases this)
    | member k1 k2 => exact ⟨n, _, .child hs k2.mem, k2.kind, h6, .inr ⟨hm, rfl⟩⟩

/-- **C79 (once).** In the tree of any text, two references are never reported at the same place. -/
theorem C79_once {g : Green} (hp : Parsed g) {c : Ctx} {x y : Elem} {l m : List Elem} (hx : Chain g (x :: l)) (hy : Chain g (y :: m))
    {r r' : Report} (h : check c (x :: l) = some r) (h' : check c (y :: m) = some r') (he : r.range = r'.range) : x :: l = y :: m := by
  obtain ⟨n, up, h1, h2, h3, h4⟩ := word_site hx h
  obtain ⟨n', up', k1, k2, k3, k4⟩ := word_site hy h'
  rw [h3, k3] at he
  obtain ⟨d1, t1⟩ := name_direct hp h1 h2
  obtain ⟨d2, t2⟩ := name_direct hp k1 k2
  have hloc : Verif.Nameres.Locs.locOf 0 n = Verif.Nameres.Locs.locOf 0 n' := by
    have e1 : n.kind = n'.kind := h2.trans k2.symm
    simp only [Prod.mk.injEq] at he
    simp [Verif.Nameres.Locs.locOf, Elem.ptr, e1, he.1, he.2]
  obtain ⟨-, -, hup⟩ := Verif.Nameres.Locs.C78_different (tree := fun _ => g) hp h1 k1 t1 t2 d1 d2 hloc
  subst hup
  rcases h4 with ⟨s, seg, rfl, h5, h6⟩ | ⟨hm, rfl⟩
  · rcases k4 with ⟨s', seg', k4, k5, k6⟩ | ⟨hm, k4⟩
    · cases k4
      rw [← h6, ← k6]
    · cases k4
      rcases hm with h | h | h | h <;> (rw [h.2] at h5; cases h5)
  · rcases k4 with ⟨s', seg', k4, k5, k6⟩ | ⟨hm', k4⟩
    · cases k4
      rcases hm with h | h | h | h <;> (rw [h.2] at k5; cases k5)
    · exact k4

end Verif.Ide.Unresolved
