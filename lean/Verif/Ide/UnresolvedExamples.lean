import Verif.Ide.UnresolvedProps

/-! C79: examples, and what is not reported although it should be. -/

namespace Verif.Ide.Unresolved
open Verif Verif.Syntax Verif.Nameres
open Verif.Parser (Green)
open Verif.Ide.Usages (Parsed parseOf parseOf_parsed)
open Verif.Ide.Counts (First nodeChild_iff Lacks lacks_iff around around_chain)
open Verif.Nameres.Full (Is isNode_iff)

/-- Some words mean one thing each, and the others nothing. One of the named addresses is `std`. -/
def ctxOf (known : List (List Char)) : Ctx where
  named w := decide (w = "std".toList)
  res s := match nameNode s with
    | some n => if known.contains (nameRefText n) then [(⟨nameRefText n, .NAME, 0, []⟩, none)] else []
    | none => []
  kind _ := .NAMED_FIELD
  package _ := 0
  missing := []
  specOnly _ := false
  receiver _ := true

def qualText : List Char := "module 0x1::m{fun f(){n::g();std::h::k();}}".toList
def useText : List Char := "module 0x1::m{use 0x1::n::{a,b};fun f(){x.y;x.z();S{w:1};}}".toList
def primText : List Char := "module 0x1::m{fun f(a:b::u64,c:b::d){}}".toList
def updText : List Char := "module 0x1::m{spec f{ensures update_fields(y)&&g(y);}}".toList
def anyText : List Char := "module 0x1::m{fun f(){a[_]=1;_;}}".toList
def patText : List Char := "module 0x1::m{fun f(){let S{y}=s;let S{y:z}=s;}}".toList
def labelText : List Char := "module 0x1::m{fun f(){loop{break 'a;}}}".toList
def shortText : List Char := "module 0x1::m{struct S{x:u8}fun f(){S{x};}}".toList

/-! ### What is not reported -/

/-- **C79 fails for types whose last word is that of a primitive type.** In `b::u64` and in `b::d` the part `b` means nothing. It is
reported in the second type only. -/
theorem C79_primitive_fails : (parseOf primText).2 = true ∧
    (nameNode (around primText 12 .PATH)).map nameRefText = some ['b'] ∧ (nameNode (around primText 18 .PATH)).map nameRefText = some ['b'] ∧
    (∀ s, (ctxOf []).res s = []) ∧
    check (ctxOf []) (around primText 12 .PATH) = none ∧ check (ctxOf []) (around primText 13 .PATH) = none ∧
    check (ctxOf []) (around primText 19 .PATH) = some ⟨['b'], (31, 32), .missing .none⟩ := by
  refine ⟨by decide +kernel, by decide +kernel, by decide +kernel, fun s => ?_, by decide +kernel, by decide +kernel, by decide +kernel⟩
  unfold ctxOf
  dsimp only
  split
  · simp
  · rfl

/-- **C79 fails in specifications for calls of functions whose names begin like `update_field`.** In `update_fields(y)` and in `g(y)`
the function and the argument mean nothing. They are reported in the second call only. -/
theorem C79_update_fails : (parseOf updText).2 = true ∧
    check (ctxOf []) (around updText 12 .PATH) = none ∧ check (ctxOf []) (around updText 14 .PATH) = none ∧
    (nameNode (around updText 12 .PATH)).map nameRefText = some "update_fields".toList ∧
    (nameNode (around updText 14 .PATH)).map nameRefText = some ['y'] ∧
    check (ctxOf []) (around updText 17 .PATH) = some ⟨['g'], (47, 48), .missing .none⟩ ∧
    check (ctxOf []) (around updText 19 .PATH) = some ⟨['y'], (49, 50), .missing .none⟩ := by decide +kernel

/-- **C79 fails for `_` in an index.** In `a[_] = 1` nothing is assigned to `_`, which has no value. It is not reported; as a
statement it is. -/
theorem C79_index_fails : (parseOf anyText).2 = true ∧ check (ctxOf [['a']]) (around anyText 14 .PATH) = none ∧
    (nameNode (around anyText 14 .PATH)).map nameRefText = some ['_'] ∧ (around anyText 14 .INDEX_EXPR).head?.map (·.green.text) = some "a[_]".toList ∧
    check (ctxOf [['a']]) (around anyText 19 .PATH) = some ⟨['_'], (29, 30), .missing .none⟩ := by decide +kernel

theorem no_name {c : Ctx} {e : Elem} {anc : List Elem} (hk : e.kind = .STRUCT_PAT_FIELD) (hn : nodeChild e .NAME_REF = none) :
    check c (e :: anc) = none := by
  cases h : check c (e :: anc) with
  | none => rfl
  | some r =>
    rcases check_some h with ⟨hp, -⟩ | ⟨-, h1⟩
    · rw [hp.2] at hk; cases hk
    · obtain ⟨n, h2, -⟩ := tryCheck_some h1
      unfold nameNode at h2
      dsimp only at h2
      rw [if_neg (by rw [hk]; decide), hn] at h2
      cases h2

/-- **C79 fails for fields in patterns without a colon.** Whatever the struct is, nothing is ever reported for the field `y` in the
pattern `S{y}`. -/
theorem C79_pattern_fails : (parseOf patText).2 = true ∧ (around patText 16 .STRUCT_PAT_FIELD).head?.map (·.green.text) = some ['y'] ∧
    (∀ c, check c (around patText 16 .STRUCT_PAT_FIELD) = none) ∧
    check (ctxOf [['S'], ['s']]) (around patText 25 .STRUCT_PAT_FIELD) = some ⟨['y'], (39, 40), .missing .none⟩ := by
  refine ⟨by decide +kernel, by decide +kernel, fun c => ?_, by decide +kernel⟩
  have h : (match around patText 16 .STRUCT_PAT_FIELD with
    | e :: _ => decide (e.kind = .STRUCT_PAT_FIELD) && (nodeChild e .NAME_REF).isNone
    | [] => false) = true := by decide +kernel
  split at h
  · rename_i e anc hs
    rw [hs]
    simp only [Bool.and_eq_true, decide_eq_true_eq, Option.isNone_iff_eq_none] at h
    exact no_name h.1 h.2
  · cases h

/-- **C79 fails for labels.** The label `'a` is not there, and nothing is ever reported. -/
theorem C79_label_fails : (parseOf labelText).2 = true ∧ (around labelText 16 .LABEL).head?.map (·.green.text) = some "'a".toList ∧
    ∀ c, check c (around labelText 16 .LABEL) = none := by
  refine ⟨by decide +kernel, by decide +kernel, fun c => ?_⟩
  have h : (match around labelText 16 .LABEL with
    | e :: _ => decide (e.kind = .LABEL)
    | [] => false) = true := by decide +kernel
  split at h
  · rename_i e anc hs
    rw [hs]
    cases h2 : check c (e :: anc) with
    | none => rfl
    | some r =>
      have hk := of_decide_eq_true h
      rcases check_some h2 with ⟨hp, -⟩ | ⟨hm, -⟩
      · rw [hp.2] at hk; cases hk
      · rcases hm with h | h | h | h <;> (rw [h.2] at hk; cases hk)
  · cases h

/-- **C79 fails for a field that is written as a variable.** In `S{x}` the name is that of a field, and there is no variable `x`.
Nothing is reported. -/
theorem C79_variable_fails : (parseOf shortText).2 = true ∧ (around shortText 22 .STRUCT_LIT).head?.map (·.green.text) = some "S{x}".toList ∧
    (nameNode (around shortText 22 .PATH)).map nameRefText = some ['x'] ∧
    ((ctxOf [['x']]).res (around shortText 22 .PATH)).map (fun e => ((ctxOf [['x']]).kind e.1, e.2)) = [(.NAMED_FIELD, none)] ∧
    check (ctxOf [['x']]) (around shortText 22 .PATH) = none ∧ check (ctxOf [['x']]) (around shortText 22 .STRUCT_LIT_FIELD) = none := by
  decide +kernel

/-! ### Examples that meet the hypotheses -/

/-- Reports of a path, a name in a group, a field, a method and a field of a literal. -/
example : check (ctxOf [['n']]) (around qualText 13 .PATH) = some ⟨['g'], (25, 26), .missing .none⟩ ∧
    check (ctxOf [['n']]) (around qualText 21 .PATH) = some ⟨['h'], (34, 35), .missing .none⟩ ∧
    check (ctxOf [['n'], ['a']]) (around useText 15 .PATH) = some ⟨['b'], (29, 30), .missing .none⟩ ∧
    check (ctxOf [['x']]) (around useText 24 .DOT_EXPR) = some ⟨['y'], (42, 43), .missing .none⟩ ∧
    check (ctxOf [['x']]) (around useText 28 .METHOD_CALL_EXPR) = some ⟨['z'], (46, 47), .missing .none⟩ ∧
    check (ctxOf [['x']]) (around useText 36 .STRUCT_LIT_FIELD) = some ⟨['w'], (52, 53), .missing .none⟩ := by decide +kernel

theorem not_exempt {c : Ctx} {p : Elem} {anc : List Elem} (h1 : isMslContext (p :: anc) = false) (h2 : ∀ a ∈ anc, ¬ Is .ATTR_ITEM a)
    (h3 : kindAt anc 0 ≠ some .PATH_TYPE) {n : Elem} (h4 : Word (p :: anc) n) (h5 : nameRefText n ≠ ['_']) : ¬ Exempt c (p :: anc) := by
  intro h
  cases h with
  | include_ h => rw [h1] at h; cases h
  | pragma h => rw [h1] at h; cases h
  | update h => rw [h1] at h; cases h
  | result h => rw [h1] at h; cases h
  | attr _ h h' => exact h2 _ h h'
  | primitive _ h => exact h3 (by simp [kindAt, h])
  | anything _ h h' => exact h5 (word_unique h h4 ▸ h')

/-- The hypotheses of `C79_silent_partial`, for a path whose words have a meaning. -/
def meets (known : List (List Char)) : List Elem → Bool
  | [] => false
  | p :: anc => isNode .PATH p && !anc.isEmpty && anc.all (fun a => !a.green.isTok && !isNode .USE_GROUP a && !isNode .ATTR_ITEM a) &&
    decide (kindAt anc 0 ≠ some .PATH) && decide (kindAt anc 0 ≠ some .PATH_TYPE) && !isMslContext (p :: anc) &&
    (parts p anc).all (fun s => (nameNode s).isSome && !fieldAndVariable (ctxOf known) (visible (ctxOf known) s)) &&
    decide ((nameNode (p :: anc)).map nameRefText ≠ some ['_']) && decide (check (ctxOf known) (p :: anc) = none)

theorem meets_spec {known : List (List Char)} {s : List Elem} (h : meets known s = true) :
    ∃ p anc n, s = p :: anc ∧ Is .PATH p ∧ anc ≠ [] ∧ (∀ a ∈ anc, a.green.isTok = false) ∧ kindAt anc 0 ≠ some .PATH ∧
      (∀ e ∈ anc, ¬ Is .USE_GROUP e) ∧ Whole (p :: anc) ∧ ¬ Exempt (ctxOf known) (p :: anc) ∧
      (∀ t, Before (p :: anc) t → ¬ Both (ctxOf known) t) ∧ Word (p :: anc) n ∧ check (ctxOf known) (p :: anc) = none := by
  cases s with
  | nil => cases h
  | cons p anc =>
    simp only [meets, Bool.and_eq_true, Bool.not_eq_true', List.all_eq_true, decide_eq_true_eq, isNode_iff] at h
    obtain ⟨⟨⟨⟨⟨⟨⟨⟨h1, h2⟩, h3⟩, h4⟩, h5⟩, h6⟩, h7⟩, h8⟩, h9⟩ := h
    have hw : ∀ s, Part (p :: anc) s → ∃ n, Word s n := fun s hs => by
      obtain ⟨q, l, rfl, hq⟩ := hs.isPath h1
      obtain ⟨n, hn⟩ := Option.isSome_iff_exists.1 (h7 _ ((mem_parts h1).2 hs)).1
      exact ⟨n, (word_path hq).1 hn⟩
    obtain ⟨n, hn⟩ := hw _ .whole
    have no : ∀ k (a : Elem), isNode k a = false → ¬ Is k a := fun k a ha hi => by rw [(isNode_iff _ _).2 hi] at ha; cases ha
    refine ⟨p, anc, n, rfl, h1, (fun he => by rw [he] at h2; cases h2), fun a ha => (h3 a ha).1.1, h4, fun a ha => no _ _ (h3 a ha).1.2,
      fun q l hq => .inl (hw _ hq), ?_, fun t ht hb => ?_, hn, h9⟩
    · refine not_exempt h6 (fun a ha => no _ _ (h3 a ha).2) h5 hn fun he => h8 ?_
      rw [(word_path h1).2 hn]
      simp [he]
    · have := (h7 t ((mem_parts h1).2 ht.1)).2
      rw [both_iff.1 hb] at this
      cases this

/-- Both parts of `n::g` have a meaning. The second path `std::h::k` begins with an address. -/
example : meets [['n'], ['g']] (around qualText 13 .PATH) = true ∧ meets [['h'], ['k']] (around qualText 21 .PATH) = true := by decide +kernel

/-- So all parts of the second path are addresses or in order. -/
example : ∃ p anc, around qualText 21 .PATH = p :: anc ∧
    ∀ t m, Part (p :: anc) t → Word t m → Address (ctxOf [['h'], ['k']]) t ∨ Fine (ctxOf [['h'], ['k']]) t := by
  obtain ⟨p, anc, n, h0, h1, h2, h3, h4, h5, h6, h7, h8, h9, h10⟩ := meets_spec (known := [['h'], ['k']]) (s := around qualText 21 .PATH) (by decide +kernel)
  exact ⟨p, anc, h0, C79_silent_partial h1 h2 h3 h4 h5 h6 h7 h8 h9 h10⟩

/-- The hypotheses of `C79_once` are met by two references. -/
example : Parsed (parseOf useText).1 ∧ (∃ x l r, Chain (parseOf useText).1 (x :: l) ∧ check (ctxOf []) (x :: l) = some r ∧ Is .DOT_EXPR x) ∧
    ∃ x l r, Chain (parseOf useText).1 (x :: l) ∧ check (ctxOf []) (x :: l) = some r ∧ Is .PATH x := by
  have key : ∀ n k, (match around useText n k with
      | x :: l => (check (ctxOf []) (x :: l)).isSome && isNode k x
      | [] => false) = true → ∃ x l r, Chain (parseOf useText).1 (x :: l) ∧ check (ctxOf []) (x :: l) = some r ∧ Is k x := fun n k h => by
    split at h
    · rename_i x l hs
      simp only [Bool.and_eq_true, isNode_iff] at h
      obtain ⟨r, hr⟩ := Option.isSome_iff_exists.1 h.1
      exact ⟨x, l, r, around_chain hs, hr, h.2⟩
    · cases h
  exact ⟨parseOf_parsed (by decide +kernel) (by decide +kernel), key 24 .DOT_EXPR (by decide +kernel), key 24 .PATH (by decide +kernel)⟩

/-- The hypotheses of `C79_members` are met by a method and by a field of a literal. -/
example : (∃ e anc n, Member e ∧ Word (e :: anc) n ∧ isMslContext (e :: anc) = false ∧ Is .METHOD_CALL_EXPR e ∧
      (ctxOf []).receiver (e :: anc) = true) ∧
    ∃ e anc n, Member e ∧ Word (e :: anc) n ∧ isMslContext (e :: anc) = false ∧ Is .STRUCT_LIT_FIELD e := by
  have key : ∀ n k, k = SyntaxKind.METHOD_CALL_EXPR ∨ k = .STRUCT_LIT_FIELD → (match around useText n k with
      | e :: anc => isNode k e && (nameNode (e :: anc)).isSome && !isMslContext (e :: anc)
      | [] => false) = true → ∃ e anc n, Member e ∧ Word (e :: anc) n ∧ isMslContext (e :: anc) = false ∧ Is k e := fun n k hk h => by
    split at h
    · rename_i e anc hs
      simp only [Bool.and_eq_true, isNode_iff, Bool.not_eq_true'] at h
      obtain ⟨w, hw⟩ := Option.isSome_iff_exists.1 h.1.2
      have hm : Member e := by
        rcases hk with rfl | rfl
        · exact .inl h.1.1
        · exact .inr (.inr (.inl h.1.1))
      exact ⟨e, anc, w, hm, (word_member hm).1 hw, h.2, h.1.1⟩
    · cases h
  obtain ⟨e, anc, n, h1, h2, h3, h4⟩ := key 28 .METHOD_CALL_EXPR (.inl rfl) (by decide +kernel)
  exact ⟨⟨e, anc, n, h1, h2, h3, h4, rfl⟩, key 36 .STRUCT_LIT_FIELD (.inr rfl) (by decide +kernel)⟩

/-- The hypotheses of `C79_group` are met by the name `b`. -/
example : ∃ p pre g sp rest q n, around useText 15 .PATH = p :: (pre ++ g :: sp :: rest) ∧ Is .PATH p ∧
    (∀ a ∈ pre ++ g :: sp :: rest, a.green.isTok = false) ∧ kindAt (pre ++ g :: sp :: rest) 0 ≠ some .PATH ∧
    ¬ Exempt (ctxOf [['n']]) (p :: (pre ++ g :: sp :: rest)) ∧ Word (p :: (pre ++ g :: sp :: rest)) n ∧ (∀ e ∈ pre, ¬ Is .USE_GROUP e) ∧
    Is .USE_GROUP g ∧ Is .USE_SPECK sp ∧ First [.PATH] sp q ∧ Lacks .PATH p ∧ ∃ e, Means (ctxOf [['n']]) (q :: sp :: rest) e := by
  have h : (match around useText 15 .PATH with
    | p :: s1 :: g :: sp :: rest => isNode .PATH p && (s1 :: g :: sp :: rest).all (fun a => !a.green.isTok && !isNode .ATTR_ITEM a) &&
        isNode .USE_SPECK s1 && isNode .USE_GROUP g && isNode .USE_SPECK sp && !isMslContext (p :: s1 :: g :: sp :: rest) &&
        (nodeChild p .PATH).isNone && decide ((nameNode (p :: s1 :: g :: sp :: rest)).map nameRefText = some ['b']) &&
        ((nodeChild sp .PATH).any fun q => decide ((visible (ctxOf [['n']]) (q :: sp :: rest)).length = 1))
    | _ => false) = true := by decide +kernel
  split at h
  · rename_i p s1 g sp rest hs
    simp only [Bool.and_eq_true, Bool.not_eq_true', List.all_eq_true, decide_eq_true_eq, isNode_iff, Option.isNone_iff_eq_none,
      Option.any_eq_true, Option.map_eq_some_iff] at h
    obtain ⟨⟨⟨⟨⟨⟨⟨⟨h1, h2⟩, h3⟩, h4⟩, h5⟩, h6⟩, h7⟩, n, h8, h8'⟩, q, h9, h10⟩ := h
    have hn := (word_path h1).1 h8
    have h0 : kindAt (s1 :: g :: sp :: rest) 0 = some .USE_SPECK := by simp [kindAt, h3.2]
    refine ⟨p, [s1], g, sp, rest, q, n, hs, h1, fun a ha => (h2 a ha).1, ?_, ?_, hn, ?_, h4, h5, nodeChild_iff.1 h9, lacks_iff.1 h7,
      visible_single.2 h10⟩
    · show kindAt (s1 :: g :: sp :: rest) 0 ≠ some .PATH
      rw [h0]; decide
    · refine not_exempt h6 (fun a ha hi => ?_) ?_ hn (by rw [h8']; decide)
      · have := (h2 a ha).2
        rw [(isNode_iff _ _).2 hi] at this
        cases this
      · show kindAt (s1 :: g :: sp :: rest) 0 ≠ some .PATH_TYPE
        rw [h0]; decide
    · intro e he hi
      rw [List.mem_singleton.1 he] at hi
      have := hi.2
      rw [h3.2] at this
      cases this
  · cases h

/-- A hidden item, and one from two packages. -/
example : tryCheck { ctxOf [] with res := fun _ => [(⟨['b'], .NAME, 0, []⟩, some (.priv .Private))] } (around primText 12 .PATH) =
      some ⟨['b'], (22, 23), .missing (.hidden (.priv .Private))⟩ ∧
    tryCheck { ctxOf [] with res := fun _ => [(⟨['b'], .NAME, 0, []⟩, none), (⟨['b'], .NAME, 1, []⟩, none)], package := fun f => f }
      (around primText 12 .PATH) = some ⟨['b'], (22, 23), .duplicate⟩ := by decide +kernel

end Verif.Ide.Unresolved
