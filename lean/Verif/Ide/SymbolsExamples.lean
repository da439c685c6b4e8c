import Verif.Ide.SymbolsCollect

/-! C71: cases of the theorems, and what a search does not do. -/

namespace Verif.Symbols
open Verif Verif.Syntax Verif.Nameres
open Verif.Parser (Green)
open Verif.Outline (NameOf nodeChild_spec)
open Verif.Nameres.Full (Is isNode_iff)
open Verif.Ide.Usages (Parsed parseOf parseOf_parsed)

/-! ### The contracts can be met -/

/-- Everything that is found, in the order of the keys. -/
def sortedUnion (ins : List (List (List Nat × Nat))) : List (List Nat × List (Nat × Nat)) :=
  (sortByKey (fun x => x.1) (ins.zipIdx.flatMap fun m => m.1.map fun x => (x.1, (m.2, x.2)))).map fun x => (x.1, [x.2])

theorem sortedUnion_isUnion (ins : List (List (List Nat × Nat))) : IsUnion ins (sortedUnion ins) := by
  constructor
  · unfold sortedUnion
    rw [List.pairwise_map]
    exact sorted_sortByKey (fun x : List Nat × (Nat × Nat) => x.1) _
  · unfold sortedUnion
    rw [List.flatMap_map]
    have : (fun x : List Nat × (Nat × Nat) => ([x.2].map fun y => (x.1, y))) = fun x => [x] := rfl
    dsimp only
    rw [this, List.flatMap_singleton']
    exact sortByKey_perm _ _

theorem lowers_map : Lowers fun q => q.map Char.toLower := fun _ _ => rfl

def symbolsText : List Char :=
  "module 0x1::m {\n struct Foo { foe: u8 }\n enum E { Foz { of: u8 } }\n fun __f() {} fun g() {}\n spec fun fo(): u8 { 1 }\n}".toList

theorem symbolsText_parsed : Parsed (parseOf symbolsText).1 := parseOf_parsed (by decide +kernel) (by decide +kernel)

/-- The hypotheses of `C71_answers`. -/
theorem symbolsText_meets : Lowers (fun q => q.map Char.toLower) ∧ (∀ ins, IsUnion ins (sortedUnion ins)) ∧
    (∀ p ∈ [[0]], ∀ f ∈ p, Parsed ((fun _ : Nat => (parseOf symbolsText).1) f)) ∧ [[0]].Pairwise List.Disjoint ∧
    ∀ p ∈ [[0]], (packageSymbols (fun _ => (parseOf symbolsText).1) p).length < 2 ^ 32 :=
  ⟨lowers_map, sortedUnion_isUnion, fun _ _ _ _ => symbolsText_parsed, by simp, by decide +kernel⟩

/-- A search for `fo`: one function of a specification, a field, a struct and a variant. -/
example : workspaceSymbols (fun q => q.map Char.toLower) sortedUnion (fun _ => (parseOf symbolsText).1) none [[0]] none ['f', 'o'] =
    some [⟨"fo".toList, .Function, 0, (102, 104), none⟩, ⟨"foe".toList, .Field, 0, (30, 33), none⟩,
      ⟨"Foo".toList, .Struct, 0, (24, 27), none⟩, ⟨"Foz".toList, .EnumMember, 0, (50, 53), none⟩] := by decide +kernel

/-- Names with two underscores are shown when they are asked for. -/
example : (workspaceSymbols (fun q => q.map Char.toLower) sortedUnion (fun _ => (parseOf symbolsText).1) none [[0]] none ['f']).map
    (fun l => l.map Answer.name) = some ["fo".toList, "foe".toList, "Foo".toList, "Foz".toList, "of".toList] ∧
    (workspaceSymbols (fun q => q.map Char.toLower) sortedUnion (fun _ => (parseOf symbolsText).1) none [[0]] none ['_', '_']).map
    (fun l => l.map Answer.name) = some ["__f".toList] := by decide +kernel

/-- Nothing is shown of the built-in file, and no more than the limit. -/
example : workspaceSymbols (fun q => q.map Char.toLower) sortedUnion (fun _ => (parseOf symbolsText).1) (some 0) [[0]] none ['f'] = some [] ∧
    (workspaceSymbols (fun q => q.map Char.toLower) sortedUnion (fun _ => (parseOf symbolsText).1) none [[0]] (some 2) ['f']).map
    (fun l => l.map Answer.name) = some ["fo".toList, "foe".toList] := by decide +kernel

/-- The hypotheses of `C71_search`, with names in two packages that differ in case. -/
example : (∀ p ∈ [[(⟨['a', 'b'], 0, [0], none⟩ : FileSymbol), ⟨['A', 'B'], 0, [1], none⟩], [⟨['a', 'B'], 1, [0], none⟩]],
      p.length < 2 ^ 32 ∧ ∀ s ∈ p, Ascii s) ∧
    worldSymbols (fun q => q.map Char.toLower) sortedUnion
      [[⟨['a', 'b'], 0, [0], none⟩, ⟨['A', 'B'], 0, [1], none⟩], [⟨['a', 'B'], 1, [0], none⟩]] ['a', 'B'] =
    some [⟨['A', 'B'], 0, [1], none⟩, ⟨['a', 'B'], 1, [0], none⟩] := by
  refine ⟨?_, by decide +kernel⟩
  simp [Ascii]

/-! ### What a search does not do -/

/-- **C71 (fails: capital letters in the query).** A capital letter in a query stands for itself only: `FO` does not find `fo`. -/
theorem C71_upper_fails {lower : List Char → List Char} (hl : Lowers lower)
    {union : List (List (List Nat × Nat)) → List (List Nat × List (Nat × Nat))} (hu : ∀ ins, IsUnion ins (union ins)) :
    ∃ tree : Nat → Green, Parsed (tree 0) ∧ (∃ e anc n, Declared (tree 0) (e :: anc) ∧ NameOf e n ∧ n.green.text = ['f', 'o']) ∧
      workspaceSymbols lower union tree none [[0]] none ['F', 'O'] = some [] := by
  refine ⟨fun _ => (parseOf symbolsText).1, symbolsText_parsed, ?_, ?_⟩
  · have hm : (⟨['f', 'o'], 0, [16, 0], some ['m']⟩ : FileSymbol) ∈ packageSymbols (fun _ => (parseOf symbolsText).1) [0] := by
      decide +kernel
    obtain ⟨f, -, c, h1, h2⟩ := ((C71_index _ _).1 _).1 hm
    obtain ⟨e, anc, n, rfl, hc, hn, -⟩ := declared_chain h1
    obtain ⟨_, _, he, h3, -⟩ := h2
    cases he
    refine ⟨e, anc, n, h1, hn, ?_⟩
    have := (nameText_parsed symbolsText_parsed hc hn).1
    rw [h3] at this
    exact (Option.some.inj this).symm
  · obtain ⟨-, -, h1, h2, h3⟩ := symbolsText_meets
    obtain ⟨res, cs, h4, -, -, h5, h6, -, -⟩ := C71_answers hl hu h1 h2 h3 none none ['F', 'O']
    have hcs : cs = [] := by
      rw [List.eq_nil_iff_forall_not_mem]
      rintro ⟨f, c⟩ hx
      obtain ⟨hf, -, hd, e, anc, n, rfl, hn, hsh⟩ := (h5 f c).1 hx
      obtain ⟨_, _, _, he, hc, -⟩ := declared_chain hd
      cases he
      have hname := (nameText_parsed symbolsText_parsed hc hn).1
      have hf : f = 0 := by simpa using hf
      subst hf
      have hm := ((C71_index (fun _ => (parseOf symbolsText).1) [0]).1 ⟨n.green.text, 0, e.path, containerOf (e :: anc)⟩).2
        ⟨0, by simp, _, hd, e, anc, rfl, hname, rfl, rfl, rfl⟩
      have hall : ∀ s ∈ packageSymbols (fun _ => (parseOf symbolsText).1) [0], shown ['F', 'O'] s = false := by decide +kernel
      have := hall _ hm
      rw [Bool.eq_false_iff] at this
      exact this ((shown_iff _ _).2 hsh)
    subst hcs
    have := h6 rfl
    rw [List.take_nil, List.forall₂_nil_left_iff] at this
    rw [h4, this]

def manyText : List Char := "module 0x1::ab {}".toList
def oneText : List Char := "module 0x1::b {}".toList

/-- 128 files with a module `ab`, and one more with a module `b`. -/
def manyTree (f : Nat) : Green := if f < 128 then (parseOf manyText).1 else (parseOf oneText).1

theorem manyTree_parsed (f : Nat) : Parsed (manyTree f) := by
  unfold manyTree
  split
  · exact parseOf_parsed (by decide +kernel) (by decide +kernel)
  · exact parseOf_parsed (by decide +kernel) (by decide +kernel)

theorem manyTree_declared (f : Nat) : ∃ m n, m ∈ (Elem.root (manyTree f)).children ∧ Is .MODULE m ∧ NameOf m n ∧
    n.green.text = if f < 128 then ['a', 'b'] else ['b'] := by
  have key : ∀ g : Green, ∀ w, ((Elem.root g).children.find? fun m => isNode .MODULE m && decide ((nodeChild m .NAME).map (fun n => n.green.text) = some w)).isSome →
      ∃ m n, m ∈ (Elem.root g).children ∧ Is .MODULE m ∧ NameOf m n ∧ n.green.text = w := by
    intro g w h
    obtain ⟨m, hm⟩ := Option.isSome_iff_exists.1 h
    have h1 := List.find?_some hm
    rw [Bool.and_eq_true, decide_eq_true_eq, Option.map_eq_some_iff] at h1
    obtain ⟨h1, n, h2, h3⟩ := h1
    exact ⟨m, n, List.mem_of_find?_eq_some hm, (isNode_iff _ _).1 h1, nodeChild_spec h2, h3⟩
  unfold manyTree
  split
  · exact key _ _ (by decide +kernel)
  · exact key _ _ (by decide +kernel)

theorem manyTree_few : (packageSymbols manyTree (List.range 129)).length < 2 ^ 32 := by decide +kernel

/-- **C71 (fails: the limit).** A declaration whose name is the query is not among the answers if there are 128 others before it in
the order of the names. Nothing says that there are more. -/
theorem C71_limit_fails {lower : List Char → List Char} (hl : Lowers lower)
    {union : List (List (List Nat × Nat)) → List (List Nat × List (Nat × Nat))} (hu : ∀ ins, IsUnion ins (union ins)) :
    ∃ (tree : Nat → Green) (files : List Nat) (query : List Char) (res : List Answer), (∀ f, Parsed (tree f)) ∧
      (∃ f ∈ files, ∃ e anc n, Declared (tree f) (e :: anc) ∧ NameOf e n ∧ n.green.text = query) ∧
      workspaceSymbols lower union tree none [files] none query = some res ∧ ∀ a ∈ res, a.name ≠ query := by
  obtain ⟨res, cs, h1, h2, h3, h4, h5, -, -⟩ := C71_answers hl hu (tree := manyTree) (packages := [List.range 129])
    (fun _ _ f _ => manyTree_parsed f) (by simp) (by simpa using manyTree_few) none none ['b']
  have h5 := h5 rfl
  refine ⟨manyTree, List.range 129, ['b'], res, manyTree_parsed, ?_, h1, ?_⟩
  · obtain ⟨m, n, a, b, c, d⟩ := manyTree_declared 128
    exact ⟨128, by simp, m, _, n, .top a b c, c, d⟩
  · intro a ha hname
    -- the place of the answer in the list
    obtain ⟨i, hi, rfl⟩ := List.getElem_of_mem ha
    have hlen := h5.length_eq
    have hi' : i < cs.length := by rw [List.length_take] at hlen; omega
    have hi128 : i < 128 := by rw [List.length_take] at hlen; omega
    obtain ⟨e, anc, n, b1, b2, b3, -⟩ := (List.forall₂_iff_get.1 h5).2 i (by rw [List.length_take]; omega) hi
    simp only [List.get_eq_getElem, List.getElem_take] at b1 b3
    rw [hname] at b3
    choose m nm c1 c2 c3 c4 using manyTree_declared
    -- all the others come before it
    have hsub : ∀ x ∈ (List.range 128).map (fun f => (f, [m f, Elem.root (manyTree f)])), x ∈ cs.take i := by
      intro x hx
      obtain ⟨f, hf, rfl⟩ := List.mem_map.1 hx
      have hf : f < 128 := by simpa using hf
      have htext : (nm f).green.text = ['a', 'b'] := by rw [c4 f, if_pos hf]
      have hmem : (f, [m f, Elem.root (manyTree f)]) ∈ cs := by
        refine (h4 _ _).2 ⟨⟨_, List.mem_singleton.2 rfl, by simp; omega⟩, by simp, .top (c1 f) (c2 f) (c3 f), m f, _, nm f, rfl, c3 f, ?_⟩
        rw [htext]
        exact (shown_iff ['b'] ⟨['a', 'b'], 0, [], none⟩).1 (by decide)
      obtain ⟨j, hj, hje⟩ := List.getElem_of_mem hmem
      rw [List.mem_take_iff_getElem]
      refine ⟨j, ?_, hje⟩
      rw [Nat.lt_min]
      refine ⟨?_, hj⟩
      by_contra hij
      rcases Nat.lt_or_eq_of_le (Nat.not_lt.1 hij) with hij | rfl
      · have := List.pairwise_iff_getElem.1 h3 i j hi' hj hij e anc n (m f) _ (nm f) b1 (by rw [hje]) b2 (c3 f)
        rw [← b3, htext] at this
        revert this
        decide
      · rw [hje] at b1
        cases b1
        have e1 := Outline.nodeChild_of b2
        rw [Outline.nodeChild_of (c3 f)] at e1
        cases e1
        rw [htext] at b3
        cases b3
    have hnd : ((List.range 128).map (fun f => (f, [m f, Elem.root (manyTree f)]))).Nodup := by
      refine List.Nodup.map ?_ List.nodup_range
      intro a b h
      exact (Prod.mk.injEq .. ▸ h).1
    have := (List.subperm_of_subset hnd hsub).length_le
    rw [List.length_map, List.length_range, List.length_take] at this
    omega

/-- **C71 (fails: the container).** The index knows what a declaration is in, but no answer says it. -/
theorem C71_container_fails :
    (∀ lower union tree builtins packages env query res,
      workspaceSymbols lower union tree builtins packages env query = some res → ∀ a ∈ res, a.container = none) ∧
    ∃ tree : Nat → Green, Parsed (tree 0) ∧ (∃ s ∈ packageSymbols tree [0], s.name = ['f', 'o'] ∧ s.container = some ['m']) ∧
      ∃ a, a.name = ['f', 'o'] ∧ a.container = none ∧
        (workspaceSymbols (fun q => q.map Char.toLower) sortedUnion tree none [[0]] (some 1) ['f', 'o']) = some [a] := by
  refine ⟨?_, fun _ => (parseOf symbolsText).1, symbolsText_parsed, by decide +kernel,
    ⟨"fo".toList, .Function, 0, (102, 104), none⟩, by decide +kernel, rfl, by decide +kernel⟩
  intro lower union tree builtins packages env query res h a ha
  unfold workspaceSymbols at h
  rw [Option.map_eq_some_iff] at h
  obtain ⟨l, -, h⟩ := h
  have hmem : a ∈ l.filterMap (answer tree builtins) := by
    subst h
    dsimp only at ha
    split at ha
    · exact List.mem_of_mem_take ha
    · exact ha
  obtain ⟨s, -, hs⟩ := List.mem_filterMap.1 hmem
  unfold answer at hs
  split at hs
  · cases hs
  · split at hs
    · split at hs
      · cases hs; rfl
      · cases hs
    · cases hs

end Verif.Symbols
