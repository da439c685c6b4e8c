# Formal model of the Move language server: design

The subject is the Rust workspace in `/repo` (aptos-labs/move-vscode-extension, pinned). It is read as
text only. The model is Lean 4 in `lean/Verif/`; the list of properties is `properties.jsonl`; the
state of each property is `MANIFEST.json`; mutation experiments are in `seeded/LOG.jsonl`.

## Trusted base

* The Lean 4.33.0 kernel, and for each theorem only the standard axioms `propext`,
  `Classical.choice`, `Quot.sound` (section "Axioms" lists what `#print axioms` reports). No axiom is
  added, no `sorry`, no `native_decide`, no `bv_decide`.
* The reading of the Rust code. Every model definition carries a comment with file and lines; where a
  definition simplifies the code the comment says what was dropped.
* The statements: each property theorem is stated against a small specification written separately
  from the model (files `*/Spec.lean` or the top of a `Props` file).

## Modelling conventions

* `&mut self` methods return the new state. A panic (`assert!`, `unwrap`, `expect`, slice out of range,
  arithmetic underflow in debug builds) is an explicit value (`none` / `Except.error` / `.panic`).
* `usize`/`u32` are `Nat`; a place where wrap-around would matter is said in the comment.
* A Rust string is either a list of UTF-8 bytes (where offsets matter, `is_char_boundary` explicit) or
  a list of `Char` with the UTF-8 width of each character (lexer).
* Hash maps are functions `K → Option V` or association lists; nothing depends on iteration order
  unless said.
* Threads: an operation that runs on another thread is a pair of atomic steps (start, completion) and a
  theorem quantifies over all interleavings of steps.
* Loops are structural recursion; where the source loops on a condition that is not structurally
  decreasing the model uses fuel and a theorem shows that enough fuel always exists.
* External crates (`vfs`, `rowan`, `salsa`, `line_index`, `lsp_server::ReqQueue`, `itertools`) are not
  verified. The part used is modelled by its documented contract, named in the comment.

Each area has its own directory with `Model.lean` (functions from the source), `Lemmas.lean` (helper
lemmas) and `Props.lean` (property theorems, each followed by an `example` that satisfies its
hypotheses non-trivially). Theorem names start with the property id. A theorem that covers only part
of a property has the suffix `_partial`; a theorem that shows the property false of the code has
`_fails` in the name and carries a concrete witness.

## Plan per property

| id | modelled | how proved |
|----|----------|------------|
| C01 | `TextChange::apply`, `TextEdit::apply`, `TextEditBuilder` on byte lists, char boundaries explicit | refinement: back-to-front replacement equals a one-pass splice specification; induction on the sorted list |
| C02 | same, stable sort by (start, end) | uniqueness of the sorted permutation for non-touching edits |
| C03 | `TextEdit::union` with `merge_by`, `dedup_by` | refinement to the splice of the merged list; asymmetry of the tie rule shown by witness |
| C04 | `apply_to_offset` | induction over the edit list; decomposition of the spliced text at the mapped offset |
| C05 | builder and merge on duplicates | union: proved; builder: expected to fail, witness |
| C06 | `LineEndings::normalize` loop on bytes, `map` | loop invariant; specification by recursion on the text |
| C07 | `apply_document_changes`, line index as a function of text | refinement to sequential application; invariant "index valid up to line" |
| C08 | `all_edits_are_disjoint` | sorted adjacent check iff pairwise |
| C09 | `lsp_position`, `offset`, `LineIndex::{line_col,offset,to_wide,to_utf8}` by contract over byte/char lists | round trip by induction on the text |
| C10 | `from_proto::offset` clamp | expected to fail (witness), partial for last line |
| C11 | handlers for open/change/close, loader events, `OpenedFiles` | invariant over histories |
| C12 | `OpQueue` | invariant over traces; abstract queue specification |
| C13 | `OpQueue` with the force flag | expected to fail, witness; partial without interleaved plain requests |
| C14 | request bookkeeping: register/respond/cancel/retry | invariant over traces: responses are duplicate free and a subset of registered ids |
| C15 | dispatcher modes × handler outcomes | case analysis; synchronous cancellation expected to fail |
| C16 | `on_request` with the shutdown flag | invariant over traces |
| C17 | `update_status_or_notify` | invariant over traces |
| C18 | `switch_workspaces` | invariant over traces |
| C19 | `complete_request` | witness for the panic; partial for known ids |
| C20 | `FileChanges::apply`, `Files` | last-write-wins refinement; exact characterization of the panic |
| C21 | `find_spec_file_set` | decision logic over strings |
| C22 | `collect_deps_transitively` | invariant of breadth-first search against `Relation.ReflTransGen` |
| C23 | `collect_reachable_manifests` | same technique, fuel bound by number of manifests |
| C24 | `load_aptos_packages` | expected to fail, witness; partial for one workspace member |
| C25 | lexer length functions over `List Char` | every length function returns a prefix length ≥ 1; strong induction for the tiling |
| C26 | `get_block_comment_len` in chars vs bytes | ASCII: proved; non-ASCII: witness of the panic and the mis-split |
| C27 | `TokenSet` as 128-bit vectors | bit-vector algebra; the kinds table |
| C28 | lexer, whole grammar, events, `process`, `TextTreeSink` (`Verif/Parser`) | judgement on parser programs (events are a balanced extension); stack machine invariant of the sink; leaves are groups of tokens |
| C29 | markers, rollback, abandon | state equality over any sequence of operations on later markers |
| C30 | the whole grammar with fuel | every grammar function meets the judgement with a progress bound; fuel linear in the length of the text |
| C31 | the whole grammar with explicit panics | witnesses for panicking inputs; absence of panics outside the listed hazards in release builds |
| C32 | `CommentKind` | decision logic over strings |
| C33 | `UnificationTable` | acyclicity invariant with a rank; union-find refinement |
| C34 | snapshots | state equality, nested traces |
| C35 | `combine_types`, `coerce_types` with fuel | witnesses (panic, divergence); termination without panic, and of any sequence of checks, if in each check one side has no type variable and no unknown part or is an undetermined variable (occurs check, rank of variables) |
| C36 | `combine_types` on ground types | soundness against an inductive compatibility relation (with lax rules) by induction on fuel; equivalence with the strict relation by induction on the derivation |
| C37 | `Substitution`, folds | structural induction |
| C38 | `autoborrow` | decision logic |
| C39 | ability table | structural induction; witness for the unit type |
| C40 | `NumericAddress::short` | value semantics of digit strings; witnesses for case and radix |
| C41 | `is_visible_in_context` | decision logic against a declarative rule |
| C42 | preorder walk with stack | tree induction against the recursive definition |
| C43 | `get_entries_in_block` | list induction |
| C44 | `Node::add`, `flatten` | tree invariant, tiling by induction; laminarity hypothesis, witness without it |
| C45 | `SemanticTokensBuilder` | decode ∘ encode = id by induction |
| C46 | `diff_tokens` | list algebra |
| C47 | `set_score`, `{:08x}` | hex digits lexicographic order = numeric order |
| C48 | `tree_diff` on generic trees | induction on trees; splice calculus of C01 |
| C49 | `try_extend_selection` and the loop of `handle_selection_range` (`Verif/Ide/Extend.lean`), on parsed trees | case analysis; range containment |
| C50 | `AssistKind` | finite table plus string lemma |
| C51 | `active_param` | list induction |
| C52 | `loop_ancestors` | list induction over the ancestor chain |
| C53 | loop of `completion_item` over the edit | pieces in order; uniqueness of the stable sort; splice calculus |
| C56, C57, C58 | lexer kinds, `IdentifierKind::classify`, `QuoteOffsets` (`Verif/Lexer/Kinds.lean`, `Verif/Comments`) | case analysis of the lexer against a table of spellings; list induction |
| C59 | `get_entries_from_walking_scopes`, entries of each scope (`Verif/Nameres/Scopes.lean`) | induction over the ancestor chain |
| C60 | `handle_code_action`, `handle_code_action_resolve` (`Verif/Ide/Assists.lean`) | list positions of the lazy and the resolved answer |
| C61 | `push_param`, `signature_help` of to_proto (`Verif/Ide/Signature.lean`) | labels and offsets as the client reads them |
| C62 | `FindUsages::search` and the scope of a search (`Verif/Ide/Usages.lean`, `UsagesProps.lean`, `UsagesOnce.lean`, `UsageScope.lean`) | the names that refer to an item; the places where `walkScopes` of C59 finds a binding |
| C63 | renaming (`Verif/Ide/Rename.lean`, `RenameProps.lean`, `RenameLocal.lean`, `RenameExamples.lean`, `RenameMore.lean`; `Verif/Syntax/Relabel.lean`, `Verif/Parser/Relabel.lean`, `Relex.lean`, `Verif/Nameres/Renamed.lean`) | the tree with other texts at some leaves; the definition a name refers to before and after |
| C64 | precedence (`Verif/Parser/Precedence.lean` (spec), `Exact.lean`, `Emits.lean`, `PrecLemmas.lean`, `PrecMain.lean`, `PrecFile.lean`, `PrecBody.lean`, `Shape.lean`, `PrecProps.lean`, `PrecBodyProps.lean`) | expressions as trees, when an operand needs no parentheses, how they are written in tokens; the walk through the tree without white space |
| C65 | quick fixes (`Verif/Ide/QuickFix.lean` (model), `QuickFixProps.lean`, `QuickFixFactory.lean`) | expressions with a hole; when the new expression may stand in the hole; walks through trees |
| C66 | unused imports (`Verif/Nameres/Path.lean` (kinds of paths), `Verif/Ide/Imports.lean` (model), `ImportsProps.lean`, `ImportsReport.lean`, `ImportsNames.lean`, `ImportsExamples.lean`) | the walk through the scopes with and without the entry of an import; what should be marked of a statement |
| C67 | fully qualified paths (`Verif/Nameres/Resolve.lean` (model), `ResolveProps.lean`, `ResolvePaths.lean`, `ResolveScope.lean`, `Verif/Ide/ResolveExamples.lean`, `ScopeExamples.lean`) | modules by the address they declare, items by where they are declared; the walk through the scopes is any function |
| C68 | the syntax editor and "Organize imports" (`Verif/Editor/Model.lean`, `Lemmas.lean`, `Props.lean`; `Verif/Ide/Organize.lean` (model), `OrganizeProps.lean`, `OrganizeFile.lean`, `OrganizeOne.lean`, `OrganizeExamples.lean`) | a tree that is changed in place, with the paths of the old tree as identities; changes inside of replaced elements panic (no mappings); the trees that are built from text are any trees; which imports are unused as in C66 |
| C69 | "Add import" (`Verif/Ide/AutoImport.lean` (model), `AutoImportText.lean`, `AutoImportOffers.lean`, `AutoImportPlace.lean`, `AutoImportProps.lean`, `AutoImportExamples.lean`) | the parser as in C10 with at most 300 steps for the small texts of the factory, which is more than they take; names as in C67; changes of the tree as in C68; that the name is not resolved is not part of the model |
| C70 | outline (`Verif/Ide/Outline.lean` (model), `OutlineProps.lean`) | line index as in C01; the tree is that of a text (names are single tokens by C72); `children: None` and an empty list of children are the same |
| C72 | parts required by the parser (`Verif/Syntax/Required.lean` (model), `RequiredProps.lean`, `RequiredExamples.lean`; `Verif/Parser/Content.lean`, `Full.lean`, `Neat.lean`) | parser, lexer and sink as in C31; the accessors are a table of kinds and parts. Every function of the grammar is proved to leave the parts in the nodes it completes (`Req`), and the sink to keep them |
| C71 | workspace symbols (`Verif/Ide/Symbols.lean` (model), `SymbolsProps.lean`, `SymbolsCollect.lean`, `SymbolsExamples.lean`) | the finite state maps are association lists with increasing keys; `union` of their streams is a parameter with the contract `IsUnion` (keys do not decrease, everything is there once; `sortedUnion` meets it), `str::to_lowercase` one with the contract `Lowers` (on ASCII). The parallel sort is a stable sort. Trees are those of parsed texts, so that names are ASCII and one token (C72). Positions are offsets. The cache of the index (salsa) is left out |
| C73 | unused variables (`Verif/Ide/Unused.lean` (model), `UnusedFix.lean`, `UnusedExamples.lean`) | on top of the models of C62 and C63. Whether a pattern resolves to an enum variant, the specifications of a function and the files of dependent packages are parameters. That a `let` of a specification is in a block and a parameter has a name (`Grammatical`), and that an identifier pattern has one child, is taken from the grammar as a hypothesis. The edit of the fix is the replacement of the range; the tree diff that makes it is left out |
| C74 | numbers of fields and arguments (`Verif/Ide/Counts.lean` (model), `CountsProps.lean`, `CountsArgs.lean`, `CountsExamples.lean`) | what a path or a call means is a parameter, given as the declaration or its numbers. Whether the inference leaves type arguments open is one too. A named field without a name and a literal without a path panic (C72); so does a method of a function without parameters, which release builds would not notice |
| C75 | shown type errors (`Verif/Ide/TypeErrors.lean`) | what the inference finds is a parameter: a list of ranges with messages. The texts of the messages are not modelled, only whether there is one |
| C76 | fixes that shorten an expression (`Verif/Ide/Simplify.lean`, `SimplifyExamples.lean`) | on the expressions of C64. Names and type arguments are left out of them, and with them the questions whether a fix is offered; the equality of the left sides is a parameter. How the editor replaces a node in the text is not part of it; the text is read again with the parser of C64 |
| C77 | texts of types (`Verif/Types/Render.lean`, `RenderProps.lean`) | the full name of an item, the package of its file and the names of type parameters are parameters. Links in hints and the lengths at which hints are cut are left out |
| C78 | locations (`Verif/Nameres/Loc.lean`) | `try_to_node` and `child_or_token_at_range` of `rowan` are modelled by hand; the binary search over the children is the first child that overlaps the range. The name that a location has in debug builds is left out |
| C79 | unresolved references (`Verif/Ide/Unresolved.lean`) | The results of name resolution, the type of a receiver, the names that only specifications have (`result`, `self`) and the missing dependencies are parameters; the kinds of paths are those of the model of C67. The names in the note `resolves to` and the fixes of a report (C68) are left out |
| C80, C81 | checks of the types of fields (`Verif/Ide/FieldTypes.lean`) | The lowering of a type, the abilities of declarations and what a path means are parameters; abilities of types are those of the model of C39. An ability without an identifier is left out instead of a panic (C72 excludes it) |
| C82 | inlay hints (`Verif/Ide/Inlay.lean`) | The type of a pattern with the parts of its label, what is called with the names of its parameters, whether a path means a struct, and lower case are parameters; an assumption of C82_resolve is that the hash tells the hints of the file apart. Labels and links are the same in both requests; only the contents of links are sent later |
| C83 | completion of paths (`Verif/Ide/Complete.lean` (model), `CompleteProps.lean`, `CompleteExamples.lean`) | for a cursor at a path that is there; what the text with a name put in at the cursor says about the place (in `use`, `acquires`, a specification) is a parameter, as are the walks, whose contract `Lists` is proved for walks through scopes (`C83_walk`); keywords, builtin types and the texts of the items are left out |
| C84 | tests and transactions to run (`Verif/Ide/Runnables.lean` (model), `RunnablesProps.lean`, `RunnablesExamples.lean`) | what the prover is run on is a parameter; the dependencies of transactions are left out; `aptos move test --filter` is trusted to run the tests that have the filter in `<address>::<module>::<function>` (`Runs`), as its help says |
| C85 | completion of fields, labels and items of specifications (`Verif/Ide/CompleteFields.lean` (model, proofs), `CompleteFieldsExamples.lean`) | what the path of a literal means is a parameter (`Env` of C74); the node at the cursor is given; texts that are inserted and keywords are left out |
| C86 | specifications of functions (`Verif/Ide/Specs.lean` (model, proofs), `SpecsExamples.lean`) | related files and what the paths of specifications of modules lead to are parameters; the function at the cursor is given; the order of a `HashSet` of files is that of a list; that a specification has its keyword is a hypothesis |
| C87 | runs of the prover (`Verif/Ide/ProverRuns.lean` (model, proofs, examples)) | as for C86; that `from_module_spec` and `ModuleSpec::module` lead to the same module is taken for granted |
| C88 | replacing `public(friend)` and `public(package)` (`Verif/Ide/VisFix.lean` (model, proofs, examples)) | deleting a token by the editor removes it from the children of its parent (C46 for the text) |
| C89 | names highlighted together (`Verif/Ide/HighlightRelated.lean` (model, proofs, examples)) | as for C62: the classification of names and the scope of an item are parameters; the contract of `NameClass::classify` for the name of an item is `World.Fits.own` |
| C90 | documentation of items (`Verif/Ide/Docs.lean` (model, proofs, examples)) | the white spaces of `str::trim` are a parameter; the header and the signature in the hover are left out, and so is which constants are used as error codes |
| C91 | `acquires` and redundant `::` (`Verif/Ide/Unneeded.lean` (model, proofs, examples)) | deleting an element of the tree is deleting its text (`SyntaxEditor`, C46, C48) |
| C92 | Fields in short form (`Verif/Ide/Shorthand.lean` (model, proofs, examples)) | a field made by `lit_field_shorthand` and the like has the value as its only child (`ast_from_text` of a template); replacing an element is replacing its text (`SyntaxEditor`, C46, C48) |
| C54, C55 | turns of the main loop (`Verif/Server/Loop.lean`) | invariant between turns |

## Checks of the model against recorded outputs

`tools/golden/run.sh` runs the model of the lexer, the whole grammar (`Verif/Parser/Grammar`) and the tree sink on
the 181 parser fixtures of the target (`crates/syntax/tests`) and compares the resulting trees with the recorded
ones. All are equal. This is evidence that the model was read off correctly, and not part of any proof.

The parser theorems take as parameter the function that measures the first grapheme cluster of a text
(`unicode-segmentation`). Its contract: a cluster has at least one character (`Graphemes`), and two ASCII characters
other than CR LF are never in one cluster (`AsciiBreaks`); for C63 also: where a cluster ends depends on its characters
and the next one, and all characters that can start a name are alike there (`OneAhead`). Errors of the lexer are not part of the modelled result.

## Not modelled

Salsa's incremental recomputation, rowan's tree storage, the file watcher, the network transport, the
Node/TypeScript client, completion providers and diagnostics as a whole, the formatter subprocess.

## Disagreements between code and property

Each is a theorem with `_fails` in its name and a concrete witness. The positive part that does hold is a
theorem of the same property.

* C03 `C03_union_symmetric_fails`, `C03_insert_source_edit_overlap_lost_fails`: merging two edits depends on
  their order when an insertion and a replacement start at the same offset; an overlapping second edit of a
  file is dropped (only logged) in release builds.
* C05 `C05_builder_duplicate_fails`: the builder accepts the same replacement twice and then applies it
  twice, deleting further text.
* C06 `C06_*_fails`: CR CR LF leaves a CR LF behind.
* C07 `C07_stale_index_fails`, `C07_inside_surrogate_pair_panics_fails`: a range whose end is on an earlier
  line than its start is applied with a stale line index; a position inside a surrogate pair panics.
* C10 `C10_past_end_of_line_fails`: a column past the end of a line is read as the start of the next line.
* C13 `C13_forced_reload_lost_fails`, `C13_main_loop_fails`: a forced reload request is overwritten by a later plain one.
* C15 `C15_sync_cancelled_fails`: a synchronous handler that returns a cancellation is never answered.
* C16 `C16_second_shutdown_fails`: a second shutdown request is answered with success instead of an error.
* C19 `C19_unknown_response_fails`: a response with an unknown id, or a second response, panics.
* C20 `C20_recreated_file_fails`: a file that is created, deleted and created again before the pending
  changes are handed over ends as a modification, so it gets no package; asking for its package panics.
* C20 `C20_deletion_fails`, `C20_close_unsaved_fails`: deleting a file, or closing a document which does not
  exist on disk, panics when the change reaches the database.
* C22 `C22_same_name_fails`: a package whose name was already seen is skipped together with everything only
  it reaches.
* C24 `C24_git_dependency_fails`, `C24_unresolved_member_fails`: a workspace member that another member
  reaches as a git dependency becomes a library; whether a member's dependencies are resolved depends on the
  order of the members when some of them are loaded without resolution.
* C25/C26 `C26_cut_short_fails`, `C26_panics_fails`: the length of a block comment is counted in characters but
  used in bytes. A comment with non-ASCII text is cut short or lexing panics.
* C27 `C27_large_kind_aliases_fails`: kinds with an index of 128 or more alias others. The parser does not look
  up such kinds, so the property itself is proved.
* C31 `C31_module_path_fails`, `C31_behavior_predicate_fails`, `C31_apply_lemma_fails`, `C31_include_fails`: four short
  malformed texts make the parser panic in every build. `C31_attribute_fails`, `C31_type_argument_fails`,
  `C31_name_pattern_fails`: three more with debug assertions and overflow checks.
* C35 `C35_unknown_fails`: passing `S<u8, X>` with an unresolved name `X` to a parameter `S<T, vector<T>>` panics.
  `C35_cycle_fails`: the assignment `(a, b) = (vector[b], vector[a])` for two empty vectors of undetermined type gives two
  variables values that contain each other; resolving either then never ends.
* C36 `C36_range_fails`, `C36_arity_fails`, `C36_return_fails`: ranges are accepted as vectors, functions with more or
  fewer parameters as each other, and references in return types of functions are ignored. `C36_direction_fails`:
  `is_tys_compatible` compares the two types in the wrong order.
* C39 `C39_unit_fails`, `C39_vector_key_fails`, `C39_generic_struct_fails`: the unit type lacks `drop`, a vector of key
  values has `key`, and a generic structure has its declared abilities whatever its type arguments are.
* C40 `C40_case_fails`, `C40_decimal_fails`: the addresses `0xA` and `0xa`, and `10` and `0xa`, are the same address but are
  not recognised as equal.
* C41 `C41_use_fails`: a `use` in main code finds test-only structures of other modules (in `use` only privacy is checked, and
  types not even for that).
* C42 `C42_collision_fails`: nodes are recorded by kind and range, so two empty nodes of the same kind at the same place
  share one entry. No text is known for which the parser produces such nodes in different scopes.
* C44 `C44_overlap_fails`: overlapping ranges that are not nested give overlapping results. Ranges of syntax elements are
  always nested, so the property itself is proved.
* C48 `C48_empty_fails`: when an empty node is replaced by a token and something is inserted after it, both changes are at the same
  offset and the insertion comes first.
* C49 `C49_unfinished_fails`: at the end of a file whose last line is an `if` without a body, followed by a newline, the selection
  cannot be extended, because the empty node for the missing body is taken as the item on the line.
* C50 `C50_generate_fails`, `C50_only_fails`: the kind of generating actions is sent as the empty kind and is not read back, and a
  client that asks for the empty kind, which covers all kinds, is offered nothing.
* C60 `C60_fallible_fails`, `C60_other_file_fails`: a fix whose edit cannot be made is offered in the lazy answer but left out of
  the resolved one, so the edit of the next fix is applied; and only the version of the file itself is checked, so after a change
  in another file a different edit can be applied.
* C51 `C51_completion_fails`: completion asks for the argument at the cursor with the cursor offset as start, so just before a
  comma (`f(a|, b)`) the next argument is taken.
* C52 `C52_shadow_fails`: a label used inside two nested loops that both declare it resolves to nothing.
* C53 `C53_touching_edit_fails`: a completion edit that touches the identifier without covering it panics.
* C59 `C59_for_fails`: the index of a `for` loop is visible in the loop's own range expression.
* C61 `C61_empty_fails`, `C61_units_fails`, `C61_active_fails`: for an item without parameters the text `<no arguments>` (or
  `<no fields>`) is put together but what is sent is an empty label. Offsets into the label are counted in characters, the client
  counts UTF-16 units. In an argument too many, or at a field that does not exist, the index is outside of the list, which the
  protocol reads as the first parameter.
* C62 `C62_proof_fails`, `C62_loop_fails`, `C62_variant_fails`: the parameters of a lemma are searched only in its block, so uses
  in its `proof` are missed; the index of a `for` is searched only in the body, so uses in the invariant of the loop are missed;
  a name in a pattern that refers to an enum variant is never reported as a usage of the variant.
* C63 `C63_shorthand_fails`, `C63_capture_fails`, `C63_label_fails`, `C63_prepare_fails`: renaming the variable of a pattern in the
  short form (`let S { x } = s`) turns it into a pattern for another field; a new name that is bound between the definition and a use
  is accepted and captures the use; a label or `_` is accepted as the new name of anything; the answer to the preparation of a rename
  is the range of the definition, which need not be at the place that was asked for, nor in that file.
* C64 `C64_return_fails`, `C64_range_fails`, `C64_comparison_fails`: `EXPR_FIRST` (expressions.rs 374-375) lacks the minus sign, so `return -1`,
  `abort -1` and `break -1` are read as a subtraction from `return`, `abort` or `break`, without an error, and `0..-1` is a range without an
  end; `g(a < b, c > (d))` is read as one argument, a call with type arguments.
* C65 `C65_cast_fails`, `C65_index_fails`, `C65_compound_fails`, `C65_word_fails`: removing the cast in `a + b as u8 * c`, which is read as
  `((a + b) as u8) * c`, leaves `a + b * c`; the fix for `*vector::borrow(&*v, i)` makes the text `*v[i]`, which is not an index expression, and
  the factory panics; `x = x == y` is reported as replaceable by a compound assignment, and there is none; the fix in
  `return*vector::borrow(&v, 0)` makes `returnv[0]`.
* C66 `C66_enum_fails`, `C66_variant_fails`, `C66_friend_fails`, `C66_spec_module_fails`: the import of `E` in `use 0x1::n::E; ... E::V` is reported as
  unused, as is that of `n` in `n::E::V`, that of `c` in `friend c;`, and an import in a `spec module` block that is used in the
  specification of a function. After the offered removal the names mean nothing.
* C67 `C67_named_fails`, `C67_use_fails`: with `use token::token;` the path `token::token::f` means nothing, since the first name is taken
  for the imported module rather than for the address. `use 0x42::std::vector;` means the module `std::vector` although there is no module
  `0x42::std`, since the name of a qualifier that means nothing is taken for an address.
* C67 `C67_short_variant_fails`: where no type is expected, `E::V` means nothing if an address of the project is named `E`, although `E` alone
  means the enum.
* C68 `C68_first_two_fails`, `C68_last_two_fails`, `C68_organize_first_fails`, `C68_organize_last_fails`: when the first two items of
  `{b, c, x, y}` or the last two items of `{x, y, b, c}` are unused, the white space or the comma between them is taken out twice. The
  editor refuses that (`never!`), and "Organize imports" changes nothing in the whole file; a debug build panics.
  `C68_organize_mixed_fails`, `C68_organize_tests_fails`: the same when one item of `{a,b}` is unused and the other one is used in
  tests only, and when two items of `{a, b, c}` are used in tests only. `C68_organize_group_fails`: `{a}` with `a` used in tests only is
  replaced both as a group and as a statement; there is no mapping from one to the other and the editor panics.
* C69 `C69_decimal_fails`, `C69_word_fails`: "Add import" builds a path by parsing each segment of the full name as the name of a
  value. If the address of the module is written as a decimal number, or if the module is named `copy` (as other words that the grammar
  looks at), there is no segment in the tree and `unwrap` panics. `C69_private_fails`: functions that may not be used are offered too; the
  new import is an error. `C69_comment_fails`: comments in a group are lost, as the group is printed anew from its names.
* C72 `C72_literal_pat_fails`: after `-` or `..` a number followed by `::` is parsed as a path, so `match (x) { -1::a => 1 }` has a
  literal pattern without a literal, and type inference panics when it asks for it. `C72_required_partial` holds of the literal of a
  pattern if no number is followed by `::`, and of the path of an expression if the word `apply` is followed by a path wherever it is.
* C71 `C71_upper_fails`: a capital letter in a query is compared as it is, so `FO` does not find `fo`, although the index is in lower
  case and the query is put in lower case to search it. `C71_limit_fails`: with 128 modules `ab` and one module `b` a search for `b`
  does not show `b`. `C71_container_fails`: the name of what a declaration is in is collected, and left out of every answer.
* C73 `C73_loop_fails`: the index of a `for` that is used only in the invariant of the loop is reported as unused.
  `C73_proof_fails`: so is the parameter of a lemma that is used only in the proof. `C73_shorthand_fails`: the fix for an unused `x` in
  `let S { x } = s` gives `S { _x }`, and there is no such field. `C73_capture_fails`: the fix does not look whether the new name is in
  use, so that in `fun f(_x: u8) { let x = 1; _x }` the last name refers to the variable with the fix and to the parameter without.
* C74 `C74_tuple_fails`: a tuple pattern with more fields than the struct has is not reported. `C74_repeated_fails`: a literal that
  gives a field twice is not reported. `C74_enum_fails`: an enum used as a type with the wrong number of type arguments is not reported,
  though the same struct is. `C74_unpack_fails`: neither are wrong numbers of type arguments in a pattern `S<u8, u8> { x }` and a
  constructor `R<u8, u8>(1)`.
* C75 `C75_nested_fails`: of two errors that start at the same place, both are shown if the inner one was found first.
  `C75_silent_fails`: a mismatch of two types that are written alike has no message, but hides the error around it, so that no error
  is shown.
* C76 `C76_index_fails`: the fix of `*vector::borrow(&*p, i)` panics: the text `*p[i]` it makes is no index expression.
  `C76_cast_fails`: without its redundant cast `a + b as u64 * c` becomes `a + b * c`. `C76_resource_fails`: `borrow_global<V>(a)[0]`
  becomes `&V[a][0]`. `C76_twice_fails`: `v[f()] = v[f()] + 1` becomes `v[f()] += 1`, with one call fewer. `C76_offer_fails`:
  `a = a == b` is said to be replaceable by a compound assignment, but there is none.
* C77 `C77_param_fails`: a type parameter can be called `u8`; a mismatch of it and `u8` is passed over in silence. `C77_packages_fails`:
  so is a mismatch of two structs of the same full name in two packages. `C77_hint_fails`: in hints the structs `S` of two modules of the
  package look the same.
* C78 `C78_empty_fails`: in the text `module` two empty nodes of the same kind at the same place have the same location.
* C79 `C79_primitive_fails`: in a type like `b::u64`, whose last word is that of a primitive type, nothing is reported, also if there is no `b` (unresolved_reference.rs:82–86 looks at the last word only).
* C79 `C79_update_fails`: in specifications nothing is reported in a call whose text begins with `update_field`, such as `update_fields(y)` (unresolved_reference.rs:141–147).
* C79 `C79_index_fails`: `_` is accepted everywhere in the left side of an assignment, as in `a[_] = 1`.
* C79 `C79_pattern_fails`: a field without a colon in a pattern, `let S { y } = s`, is never reported, also if the struct has no such field.
* C79 `C79_label_fails`: a label that is not there is never reported.
* C79 `C79_variable_fails`: in the literal `S { x }` nothing is reported if there is a field and no variable `x`.
* C80 `C80_store_fails`: a struct with `store` may have a field whose type has not `store`; the pair is missing in ability_checking.rs:33–37.
* C80 `C80_tuple_fails`, `C80_variant_fails`: fields without names and fields of variants are not checked (lib.rs:151–154, ability_checking.rs:25–28).
* C80 `C80_generic_fails`: in `struct S has copy { x: P<R> }` the abilities of `R` are not looked at (C39).
* C81 `C81_mutual_fails`, `C81_tuple_fails`: `struct A { x: B }` with `struct B { x: A }`, and `struct A(A);`, are not reported.
* C83 `C83_import_fails`, `C83_own_fails`: items whose name is in use already are offered with an import, as only the items themselves are compared with what is in scope. At the call `h()` of a function of the module, `h` of another module is offered; with its import the call means two functions and so none. Where a type parameter hides a structure of the module, the structure is offered with an import of the module into itself, which changes nothing about the name. `C83_import_partial` has the assumption that nothing in scope has the name in the namespace.
* C84 `C84_only_fails`: the filter for a test is `module::function` without the address, and it is looked for anywhere in the full name. Running the test `t` of `m` also runs `t2` and the tests of `xm` whose name begins with `t`. `C84_selects` says exactly which tests are run, `C84_only_partial` when it is only the one.
* C84 `C84_args_fails`: an argument that the user has configured is dropped if it is there already, also if it is the value of an option: of `--gas-limit 100 --instructions 100` the last `100` is lost. `C84_args_partial` has the assumption that no argument is there twice.
* C85 `C85_label_fails`: a label that two loops around the cursor declare is offered two times, and it means none of the loops (as in C52). `C85_label_partial` is for labels that are offered once.
* C87 `C87_address_fails`: the prover is run with `--only module::function` without the address; for functions of the same name in modules of the same name at different addresses this is the same. `C87_names_partial`: it tells the names of the module and of the function.
* C88 `C88_joined_fails`: in `public(friend)fun f(){}` nothing separates the parenthesis from the next word; after the fix the text is `friendfun f(){}`, which cannot be parsed. `C88_lexes_partial`: with no name or number behind the parenthesis, and with no spaces and comments in the modifier, the tokens that are left are found again.
* C89 `C89_short_fails`: in `fun f(x:u8):S{S{x}}` the `x` in the literal is highlighted with the parameter; with the cursor in the literal nothing is highlighted (`find_def_at_offset` has no item for a short form of a field; the case is commented out). `C89_same_partial`: in every name with one meaning the same is highlighted.
* C90 `C90_schema_fails`: schemas and lemmas are among the items whose documentation is shown (`HoverDocsOwner`, generated/nodes.rs:1006, 1595), but `n_attached_trivias` gives no comments to them, so that `/** d */` directly above `spec schema S{}` is never shown; above `struct S{}` it is.
* C91 `C91_space_fails`: in `x.g ::<A>(y)` the `::` is reported as redundant; without it, `x.g <A>(y)` is read as two comparisons, `(x.g < A) > (y)`, and there is no error. `opt_type_arg_list_for_expr` takes `<` for type arguments only if there is no space in front of it, and the diagnostic does not look at that.
* C92 `C92_comment_fails`: in `S{x/*c*/:x}` the field is reported, and the fix makes `S{x}` of it: the comment is lost. The new field is made from the value alone.

## Axioms

`AXIOMS.txt` is the output of `#print axioms` for every theorem named in `MANIFEST.json` (produced by
`tools/axioms.sh`). Only `propext`, `Classical.choice` and `Quot.sound` occur.
