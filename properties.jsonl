{"id": "C01", "title": "Applying a text edit is simultaneous replacement", "statement": "When a quick fix, assist or rename produces a text edit from a set of non-overlapping range replacements added in any order, applying that edit to the document gives exactly the document in which every listed range is replaced by its text and every byte outside the ranges is kept, in order. No replacement can panic when all ranges lie inside the document on character boundaries.", "quantifier": "for every document, every finite set of pairwise non-overlapping replacements and every order of adding them", "why_tests_cant": "Tests fix a handful of documents and edit lists; correctness of back-to-front in-place replacement depends on the relative order and adjacency of an unbounded number of edits.", "anchors": ["crates/ide-db/src/text_edit.rs: TextEditBuilder::finish, TextEdit::apply, Indel::apply, check_disjoint"]}
{"id": "C02", "title": "Order of adding edits does not matter", "statement": "Two runs that add the same non-touching replacements in different orders produce edits which turn any document into the same result, and both succeed or both are rejected as overlapping.", "quantifier": "for every permutation of every finite list of replacements", "why_tests_cant": "The number of permutations grows factorially; sorting stability and ties between insertions at the same offset are the interesting cases.", "anchors": ["crates/ide-db/src/text_edit.rs: TextEditBuilder::finish"]}
{"id": "C03", "title": "Merging two edits keeps both or refuses", "statement": "Merging edit B into edit A either fails and leaves A exactly as it was, or succeeds and the merged edit applied to any document equals applying all replacements of A and B simultaneously. It never silently drops a replacement.", "quantifier": "for every pair of well-formed edits and every document", "why_tests_cant": "The interleaving of two edit lists is unbounded, and the tie rules between insertions and replacements at one offset are easy to get wrong only for particular interleavings.", "anchors": ["crates/ide-db/src/text_edit.rs: TextEdit::union, check_disjoint"]}
{"id": "C04", "title": "Offset mapping through an edit agrees with applying it", "statement": "Mapping a cursor offset through an edit is undefined exactly when the offset is strictly inside a replaced range; otherwise the text before the new offset in the new document is the old text before the old offset with those replacements applied that start before the offset, and the text after it is the edited rest. The mapping is monotone.", "quantifier": "for every edit, every document and every offset", "why_tests_cant": "Requires quantification over all offsets and all edit lists with mixed growth and shrinkage.", "anchors": ["crates/ide-db/src/text_edit.rs: TextEdit::apply_to_offset"]}
{"id": "C05", "title": "The same replacement recorded twice takes effect once", "statement": "Recording an identical non-empty replacement twice (for instance because two diagnostics propose the same fix) changes the document as if it had been recorded once.", "quantifier": "for every document and every replacement", "why_tests_cant": "The duplicate is accepted by the overlap check, so only reasoning about the two code paths (builder and merge) together shows whether it is applied once or twice.", "anchors": ["crates/ide-db/src/text_edit.rs: TextEditBuilder::finish, TextEdit::union, check_disjoint"]}
{"id": "C06", "title": "Line ending normalization is lossless and idempotent", "statement": "Loading a file converts every CRLF into LF, touches nothing else, leaves no CRLF behind, is idempotent, and for a document whose line endings are uniformly CRLF (or uniformly LF) converting back gives exactly the original text.", "quantifier": "for every text", "why_tests_cant": "The in-place compaction loop maintains a moving gap; the invariant must hold for every placement of CR and LF in texts of any length.", "anchors": ["crates/stdext/src/line_endings.rs: LineEndings::normalize, LineEndings::map"]}
{"id": "C07", "title": "Incremental document changes follow the protocol", "statement": "After a didChange notification the server's document equals the client's: the listed range edits are applied one after another, each interpreted against the document produced by the previous one, and a full-text change discards everything before it.", "quantifier": "for every starting document and every list of content changes with well-formed ranges", "why_tests_cant": "The server keeps a possibly stale line index and only recomputes it when it believes it must; whether that belief is right depends on the whole sequence of changes.", "anchors": ["crates/aptos-language-server/src/lsp/utils.rs: apply_document_changes"]}
{"id": "C08", "title": "Disjointness check for client edits is exact", "statement": "The server accepts a pair of completion edits if and only if no two of their ranges overlap.", "quantifier": "for every completion item with any number of additional edits", "why_tests_cant": "A sort-then-compare-neighbours check must be shown equivalent to the pairwise condition for lists of any length.", "anchors": ["crates/aptos-language-server/src/lsp/utils.rs: all_edits_are_disjoint, edit_ranges"]}
{"id": "C09", "title": "Positions survive the round trip through the protocol", "statement": "Converting a document offset that lies on a character boundary to a protocol position and back gives the same offset, in each of the supported position encodings.", "quantifier": "for every document, every character boundary in it and each encoding", "why_tests_cant": "Needs all mixtures of one to four byte characters and line breaks.", "anchors": ["crates/aptos-language-server/src/lsp/from_proto.rs: offset", "crates/aptos-language-server/src/lsp/to_proto.rs: lsp_position", "crates/aptos-language-server/src/line_index.rs: LineIndex"]}
{"id": "C10", "title": "Columns past the end of a line stay on that line", "statement": "A protocol position whose column exceeds the line length is interpreted as the end of that same line, as the protocol demands.", "quantifier": "for every document, line and column", "why_tests_cant": "A clamp that is right for the last line can be wrong for all others; only a statement over all lines and columns shows it.", "anchors": ["crates/aptos-language-server/src/lsp/from_proto.rs: offset"]}
{"id": "C11", "title": "The server's copy of open documents mirrors the editor", "statement": "After any history of didOpen, didChange and didClose notifications the server regards exactly those documents as open that were opened and not closed since, and their content is the result of replaying the notifications; disk events never overwrite the content of an open document.", "quantifier": "for every finite history of document and disk notifications over any set of documents", "why_tests_cant": "Histories interleave arbitrarily; a test only fixes one.", "anchors": ["crates/aptos-language-server/src/opened_files.rs: OpenedFiles", "crates/aptos-language-server/src/handlers/notification.rs: handle_did_open_text_document, handle_did_change_text_document, handle_did_close_text_document", "crates/aptos-language-server/src/main_loop.rs: load_files_into_vfs"]}
{"id": "C12", "title": "At most one package reload runs at a time and none is lost", "statement": "At any moment at most one reload operation is running; a request made while one is running is remembered and started after it completes; several requests made before a start are coalesced into one start carrying the latest arguments; the stored result is that of the last completed operation.", "quantifier": "for every interleaving of requests, starts and completions", "why_tests_cant": "It is a property of all interleavings.", "anchors": ["crates/aptos-language-server/src/op_queue.rs: OpQueue"]}
{"id": "C13", "title": "A forced dependency reload request is honoured", "statement": "If some caller requested a forced reload of package dependencies, the next started reload is a forced one, no matter what other reload requests arrive before it starts.", "quantifier": "for every interleaving of requests, starts and completions", "why_tests_cant": "Coalescing loses information only in particular interleavings.", "anchors": ["crates/aptos-language-server/src/op_queue.rs: OpQueue::request_op", "crates/aptos-language-server/src/handlers/notification.rs: handle_did_save_text_document, handle_did_change_workspace_folders", "crates/aptos-language-server/src/file_changes.rs: process_pending_file_changes"]}
{"id": "C14", "title": "No request is answered twice", "statement": "Every client request gets at most one response, and no response is ever sent for an id that is not pending, whatever the order of completion, retry and cancellation.", "quantifier": "for every interleaving of request arrivals, cancellations, retries and task completions with unique ids", "why_tests_cant": "Worker threads complete in any order and cancellations race with completions.", "anchors": ["crates/aptos-language-server/src/global_state.rs: register_request, respond, cancel, is_completed", "crates/aptos-language-server/src/main_loop.rs: handle_task"]}
{"id": "C15", "title": "Every accepted request is eventually answered", "statement": "Once a request has been dispatched and its handler has run to completion (with a value, an error, a panic, or a database cancellation), the client has received a response for it or the request is queued for retry.", "quantifier": "for every request kind, dispatch mode and handler outcome", "why_tests_cant": "Handlers run synchronously, on worker threads or on the formatting thread, and each mode treats the outcomes differently.", "anchors": ["crates/aptos-language-server/src/handlers/dispatch.rs: RequestDispatcher, thread_result_to_response, result_to_response", "crates/aptos-language-server/src/main_loop.rs: handle_task"]}
{"id": "C16", "title": "After shutdown every request is refused", "statement": "Once the client has sent the shutdown request, every later request is answered with an invalid-request error, and no handler runs for it.", "quantifier": "for every history of requests containing a shutdown", "why_tests_cant": "Histories are unbounded.", "anchors": ["crates/aptos-language-server/src/main_loop.rs: on_request, on_new_request"]}
{"id": "C17", "title": "Status notifications are sent exactly on change", "statement": "The sequence of status notifications seen by the client contains no two equal consecutive entries, and the last one sent always equals the server's current status.", "quantifier": "for every history of status recomputations", "why_tests_cant": "Depends on the entire history of previous notifications.", "anchors": ["crates/aptos-language-server/src/main_loop.rs: update_status_or_notify", "crates/aptos-language-server/src/reload.rs: current_status"]}
{"id": "C18", "title": "A failed workspace reload never discards a working workspace", "statement": "If reloading packages fails while packages are loaded, the set of loaded packages is unchanged; otherwise it becomes exactly the newly loaded set, and the file loader is reconfigured with a strictly larger version number.", "quantifier": "for every history of reload results", "why_tests_cant": "A history property over the event loop.", "anchors": ["crates/aptos-language-server/src/reload.rs: switch_workspaces, is_project_fully_loaded"]}
{"id": "C19", "title": "The server survives client responses", "statement": "A response message from the client never brings the server down: responses to outstanding server requests run their handler exactly once and any other response is ignored.", "quantifier": "for every sequence of client responses", "why_tests_cant": "Only particular ids trigger the failure.", "anchors": ["crates/aptos-language-server/src/global_state.rs: complete_request, send_request"]}
{"id": "C20", "title": "Applying file changes updates exactly the named files", "statement": "After a batch of file changes the text of every file named in the batch is the last text given for it (empty for a deleted file) and every other file keeps its text; this holds for batches that also replace the package roots, including batches that delete files.", "quantifier": "for every database state and every batch", "why_tests_cant": "Deletion combined with re-partitioning is a corner that depends on which files remain in the roots.", "anchors": ["crates/base-db/src/change.rs: FileChanges::apply", "crates/base-db/src/inputs.rs: Files::replace_package_roots, Files::file_package_id, Files::set_file_text_with_durability", "crates/aptos-language-server/src/file_changes.rs: process_pending_file_changes"]}
{"id": "C21", "title": "Spec files and their modules see each other", "statement": "Within one package, file A is among the spec-related files of file B if and only if B is among those of A; every Move source file is related to itself; and the related files are precisely those with the same base name up to a .spec suffix.", "quantifier": "for every package and every pair of .move files with the usual one- or two-part names", "why_tests_cant": "Names are unbounded strings; suffix stripping is asymmetric at first sight.", "anchors": ["crates/base-db/src/inputs.rs: find_spec_file_set"]}
{"id": "C22", "title": "Dependency collection is exactly reachability", "statement": "The dependencies visible to a package are exactly the packages reachable from it over declared dependencies: no unreachable package is included, no reachable one is omitted, none is listed twice, and the computation terminates on cyclic graphs.", "quantifier": "for every finite dependency graph, including cyclic ones", "why_tests_cant": "Graphs are unbounded and the visited-set logic matters only on diamonds, cycles and name clashes.", "anchors": ["crates/project-model/src/dep_graph.rs: collect_deps_transitively, collect"]}
{"id": "C23", "title": "Loading packages from disk visits each reachable manifest once", "statement": "Starting from a workspace package, the set of loaded packages is exactly the set of manifests reachable through dependency declarations (through resolvable packages only), each loaded once; the loop terminates for cyclic dependencies.", "quantifier": "for every manifest graph", "why_tests_cant": "As above; the file system gives arbitrary graphs.", "anchors": ["crates/project-model/src/aptos_package/load_from_fs.rs: load_aptos_packages, collect_reachable_manifests"]}
{"id": "C24", "title": "A workspace package is editable whatever its neighbours", "statement": "A package that is a member of the workspace is treated as a local (editable, dependency-resolving) package, independently of the order in which workspace members are listed and of who depends on it.", "quantifier": "for every list of workspace members and every dependency graph between them", "why_tests_cant": "Depends on list order and on map overwriting between members.", "anchors": ["crates/project-model/src/aptos_package/load_from_fs.rs: load_aptos_packages"]}
{"id": "C25", "title": "Lexing is lossless and always advances", "statement": "The tokens of a source text, concatenated, are the text itself: every token is non-empty, ends on a character boundary, and the lexer terminates after at most as many tokens as there are characters.", "quantifier": "for every Unicode text", "why_tests_cant": "Token length functions are case analyses over an unbounded input language.", "anchors": ["crates/syntax/src/parse/lexer.rs: tokenize", "crates/syntax/src/parse/lexer/move_model.rs: find_token"]}
{"id": "C26", "title": "Block comments may contain any character", "statement": "A block comment token spans exactly from its opening to its matching closing delimiter, for comment bodies with arbitrary Unicode text, and lexing it never panics.", "quantifier": "for every comment body and every continuation of the file", "why_tests_cant": "Byte/character confusions show up only for non-ASCII content of particular lengths.", "anchors": ["crates/syntax/src/parse/lexer/move_model.rs: get_block_comment_len"]}
{"id": "C27", "title": "Token sets behave like sets", "statement": "Membership in a token set built by union, insertion and removal is membership in the corresponding mathematical set, for all token kinds the parser can look at.", "quantifier": "for all token sets and all token kinds", "why_tests_cant": "The representation is a fixed-width bit mask; kinds outside the width would alias.", "anchors": ["crates/syntax/src/parse/token_set.rs: TokenSet", "crates/syntax/src/syntax_kind/generated.rs: SyntaxKind"]}
{"id": "C28", "title": "The syntax tree reproduces the source text", "statement": "Whatever events the grammar emits, the resulting tree is well formed (every start has its finish, a single root) and the concatenation of its leaves is the source text, comments and whitespace included.", "quantifier": "for every token sequence and every grammar run through the parser interface", "why_tests_cant": "Holds for all event sequences, forward parents of any depth, and all placements of trivia.", "anchors": ["crates/syntax/src/parse/event.rs: process", "crates/syntax/src/parse/text_tree_sink.rs: TextTreeSink", "crates/syntax/src/parse/parser.rs: Parser, Marker, CompletedMarker"]}
{"id": "C29", "title": "Speculative parsing leaves no trace", "statement": "Rolling back a speculative parse restores the position and the event list exactly, so abandoned alternatives influence neither the tree nor the reported errors.", "quantifier": "for every parser state and every speculative run", "why_tests_cant": "Nested speculation of any depth.", "anchors": ["crates/syntax/src/parse/parser.rs: Parser::snapshot/rollback, Marker::abandon"]}
{"id": "C30", "title": "Parsing any text terminates and covers the whole text", "statement": "Parsing terminates for every text, and every token of the text ends up in the tree.", "quantifier": "for every token sequence", "why_tests_cant": "A grammar with error recovery can loop without consuming; absence of that is a property over all inputs.", "anchors": ["crates/syntax/src/parse/grammar.rs: entry_points::source_file", "crates/syntax/src/parse/grammar/**"]}
{"id": "C31", "title": "Parsing never panics", "statement": "The parser returns a tree with errors for every text, including incomplete and malformed programs; it never panics.", "quantifier": "for every token sequence", "why_tests_cant": "Internal assertions (bump of an expected token, unfinished markers) fail only on malformed inputs nobody wrote a test for.", "anchors": ["crates/syntax/src/parse/grammar.rs", "crates/syntax/src/parse/grammar/**", "crates/syntax/src/parse/parser.rs: Parser::bump, DropBomb"]}
{"id": "C32", "title": "Doc comments are classified by their prefix", "statement": "Every comment token is classified by the documented prefix table with longest prefix winning, its prefix is a prefix of its text, and extracting its text never slices outside the token.", "quantifier": "for every comment text", "why_tests_cant": "Comment texts are unbounded; overlapping prefixes such as //, ///, //// and /**/ interact.", "anchors": ["crates/syntax/src/ast/token_ext.rs: CommentKind, Comment"]}
{"id": "C33", "title": "Unifying type variables behaves as an equivalence", "statement": "Type inference's variable table is always acyclic, looking up a variable always terminates, unifying two variables makes them have the same representative and value and leaves other classes unchanged, and binding a variable gives that value to its whole class.", "quantifier": "for every sequence of unification operations", "why_tests_cant": "It is an invariant over unboundedly long histories.", "anchors": ["crates/lang/src/types/unification.rs: UnificationTable"]}
{"id": "C34", "title": "Type compatibility queries have no side effects", "statement": "Asking whether two types are compatible leaves all inference variables as they were, also when questions are nested and when they fail.", "quantifier": "for every inference state and every nested sequence of speculative questions", "why_tests_cant": "Nesting depth and the operations inside are unbounded.", "anchors": ["crates/lang/src/types/unification.rs: snapshot, rollback", "crates/lang/src/types/inference.rs: freeze", "crates/lang/src/types/inference/combine_types.rs: is_tys_compatible"]}
{"id": "C35", "title": "Type inference never crashes on well-formed code", "statement": "Checking an expression type against an expected type returns a result for every pair of types: it does not panic and does not recurse forever.", "quantifier": "for every inference state reachable from fresh variables and every pair of types", "why_tests_cant": "The failing pairs repeat a variable in particular positions.", "anchors": ["crates/lang/src/types/inference/combine_types.rs: combine_types, unify_ty_var, ty_contains_ty_var", "crates/lang/src/types/unification.rs: unify_var_value"]}
{"id": "C36", "title": "Accepted types really are compatible", "statement": "If checking an actual ground type against an expected ground type succeeds then they are the same type up to the documented coercions (mutable reference to immutable, integer literal to a concrete integer, unknown or never to anything), at every nesting level.", "quantifier": "for all ground types", "why_tests_cant": "Types are recursive; the coercions apply at every depth.", "anchors": ["crates/lang/src/types/inference/combine_types.rs: combine_no_vars, combine_ty_refs, combine_ty_tuples, combine_ty_adts, combine_ty_callables"]}
{"id": "C37", "title": "Generic substitution is capture free and composes", "statement": "Instantiating a generic type replaces exactly its type parameters; instantiating with no relevant parameters is the identity; instantiating twice equals instantiating with the composed arguments.", "quantifier": "for all types and all substitutions", "why_tests_cant": "Types are recursive.", "anchors": ["crates/lang/src/types/substitution.rs: Substitution, SubstitutionApplier", "crates/lang/src/types/fold.rs: TypeFoldable"]}
{"id": "C38", "title": "Method receivers are auto-borrowed only where Move allows", "statement": "A receiver expression is adapted to a method's self parameter exactly in the permitted cases: by value to by value, by value to any reference, mutable reference to immutable; an immutable reference is never turned into a mutable one.", "quantifier": "for all receiver and parameter types", "why_tests_cant": "Types are recursive and unbounded.", "anchors": ["crates/lang/src/types/inference.rs: autoborrow", "crates/lang/src/types/ty/reference.rs: Mutability"]}
{"id": "C39", "title": "Abilities of a type follow Move's rules", "statement": "The abilities computed for each type are those of the Move language: primitives, references, vectors and structs according to the ability tables of the language reference.", "quantifier": "for all types", "why_tests_cant": "Types are recursive.", "anchors": ["crates/lang/src/types/abilities.rs: Ability, Ty::abilities"]}
{"id": "C40", "title": "Numeric addresses are compared by value", "statement": "Two numeric addresses are considered equal by name resolution exactly when they denote the same number, regardless of leading zeros, case of hex digits, or radix.", "quantifier": "for all address literals", "why_tests_cant": "Literals are unbounded strings.", "anchors": ["crates/lang/src/nameres/address.rs: NumericAddress::short, Address::equals_to"]}
{"id": "C41", "title": "Visibility follows Move's rules", "statement": "An item is offered or resolved at a use site only when Move's visibility rules allow it: private items only inside their module, friend and package items only from friends or the same package, public items anywhere, test-only items only in test code and verification items only in specs.", "quantifier": "for all items and all use sites", "why_tests_cant": "A decision over a large product of independent facts.", "anchors": ["crates/lang/src/nameres/is_visible.rs: is_visible_in_context"]}
{"id": "C42", "title": "Attribute scopes are inherited from the nearest scoped ancestor", "statement": "Every syntax node is considered test-only or verify-only according to the nearest enclosing node (itself included) that is marked so, and main otherwise.", "quantifier": "for all syntax trees", "why_tests_cant": "The single preorder pass with an explicit stack must be shown equal to the recursive definition for trees of any shape.", "anchors": ["crates/lang/src/item_scope.rs: item_scopes, node_item_scope"]}
{"id": "C43", "title": "A local name resolves to its latest preceding binding", "statement": "In a Move block a name refers to the binding introduced by the last let statement that ends before the use and binds the name; later statements and the statement itself are not visible.", "quantifier": "for all blocks and all use offsets", "why_tests_cant": "Blocks are unbounded and shadowing chains arbitrary.", "anchors": ["crates/lang/src/nameres/blocks.rs: get_entries_in_block, LetStmtInfo::strictly_before"]}
{"id": "C44", "title": "Highlight ranges tile the document", "statement": "The semantic highlighting ranges reported for a document are sorted, non-overlapping, inside the requested range, and each position gets the highlight of the innermost added range containing it.", "quantifier": "for every sequence of added highlight ranges that are properly nested", "why_tests_cant": "The stack of nested ranges is flattened with splicing; the result depends on the whole sequence.", "anchors": ["crates/ide/src/syntax_highlighting/highlights.rs: Highlights, Node"]}
{"id": "C45", "title": "Semantic tokens decode to what was encoded", "statement": "Decoding the relative token data sent to the client by the protocol's rules gives back the absolute positions, lengths and types of all tokens in order.", "quantifier": "for every sorted list of single-line tokens", "why_tests_cant": "Deltas depend on the whole prefix.", "anchors": ["crates/aptos-language-server/src/lsp/semantic_tokens.rs: SemanticTokensBuilder::push"]}
{"id": "C46", "title": "Semantic token deltas reconstruct the new tokens", "statement": "Applying the returned delta edits to the previously sent token data gives exactly the new token data; no edit is sent when nothing changed.", "quantifier": "for all pairs of old and new token arrays", "why_tests_cant": "Common prefix and suffix may overlap in arrays of any length.", "anchors": ["crates/aptos-language-server/src/lsp/semantic_tokens.rs: diff_tokens"]}
{"id": "C47", "title": "Completion items are sorted by relevance", "statement": "When the client sorts completion items by sort text in ascending order, items come in order of descending relevance score, and exactly the maximally relevant items are preselected.", "quantifier": "for every set of items and every 32-bit score", "why_tests_cant": "Lexicographic order of a textual encoding must be shown equal to numeric order for all scores.", "anchors": ["crates/aptos-language-server/src/lsp/to_proto.rs: set_score", "crates/ide-completion/src/item.rs: CompletionRelevance::score"]}
{"id": "C48", "title": "Syntax tree diffs reproduce the new text", "statement": "The text edit computed from the difference of two syntax trees turns the old text into the new text.", "quantifier": "for every pair of syntax trees", "why_tests_cant": "Trees are unbounded; matching heuristics insert, replace and delete at every level.", "anchors": ["crates/ide-db/src/syntax_helpers/tree_diff.rs: diff, TreeDiff::into_text_edit"]}
{"id": "C49", "title": "Extending a selection never shrinks it", "statement": "Extend-selection returns a range that contains the current selection, so repeated use reaches the whole file and never loses selected text.", "quantifier": "for every tree and every selection", "why_tests_cant": "Trees and selections are unbounded.", "anchors": ["crates/ide/src/extend_selection.rs: try_extend_selection"]}
{"id": "C50", "title": "Action kinds round-trip and nest correctly", "statement": "Every code action kind is recovered from its protocol name, and the filter by requested kinds is a partial order with the empty kind at the top.", "quantifier": "for all action kinds and all strings", "why_tests_cant": "String parsing over an unbounded domain.", "anchors": ["crates/ide-db/src/assists.rs: AssistKind, AssistId"]}
{"id": "C51", "title": "The active parameter is the number of preceding commas", "statement": "In a call argument list the highlighted parameter index is the number of commas of that list at or before the cursor, hence never exceeds the number of commas and is monotone in the cursor.", "quantifier": "for every argument list and cursor offset", "why_tests_cant": "Lists are unbounded.", "anchors": ["crates/ide-db/src/active_parameter.rs: active_param"]}
{"id": "C52", "title": "Goto for loop labels stops at function boundaries", "statement": "A loop label resolves only to an enclosing loop within the same function or lambda body, innermost first.", "quantifier": "for every nesting of loops, lambdas and functions", "why_tests_cant": "Nesting is unbounded.", "anchors": ["crates/lang/src/nameres/labels.rs: loop_ancestors, get_loop_labels_resolve_variants, is_label_barrier"]}
{"id": "C53", "title": "Completion edits keep their effect when split for the client", "statement": "A completion's edit is sent to the client as one main edit at the identifier plus additional edits. Performing these together has the same effect on the document as the original edit; the pieces do not overlap; and preparing them never crashes the server as long as the original edit's replacements do not overlap.", "quantifier": "for every document, identifier range and every edit made of non-overlapping replacements", "why_tests_cant": "The number and position of replacements relative to the identifier is unbounded; the borderline case of touching ranges is easily missed.", "anchors": ["crates/aptos-language-server/src/lsp/to_proto.rs: completion_item, lsp_completion_text_edit"]}
{"id": "C54", "title": "Quiescent means settled", "statement": "Whenever the server counts itself as quiescent between two turns of the main loop (this is the flag it reports to the client), no workspace load is running or requested, no finished load is waiting to be adopted, the file loader is idle and has acknowledged the latest configuration, and the packages in use are those of the last load, unless that load failed.", "quantifier": "for every history of messages and every grouping of them into turns", "why_tests_cant": "The flag is a conjunction of conditions over state that is updated in many places; interleavings are unbounded.", "anchors": ["crates/aptos-language-server/src/reload.rs: is_fully_loaded, switch_workspaces, fetch_workspaces", "crates/aptos-language-server/src/main_loop.rs: handle_event"]}
{"id": "C55", "title": "The client is told to refresh", "statement": "Whenever the server is fully loaded between turns, no file change has reached the database since the client was last asked to refresh; and in each turn in which the server becomes fully loaded the client is asked to refresh exactly once.", "quantifier": "for every history of messages and every grouping of them into turns", "why_tests_cant": "A missed refresh needs a particular coincidence of a file change and the end of loading.", "anchors": ["crates/aptos-language-server/src/main_loop.rs: handle_event (became_quiescent, semantic tokens, code lens, inlay hint, diagnostics refresh)"]}
{"id": "C56", "title": "The kind of a token agrees with its text", "statement": "Every token the lexer makes has the text its kind stands for: punctuation and keywords are spelled as in the language, punctuation is the longest possible, an identifier is a maximal run of name characters which is not reserved, white space is maximal, a number starts with a digit, strings and comments with their opening, and a line comment ends where the line ends.", "quantifier": "for every Unicode text and every token of it", "why_tests_cant": "The input language is unbounded; a keyword that is a prefix of an identifier or a punctuation that is a prefix of a longer one can be split wrongly only in particular contexts.", "anchors": ["crates/syntax/src/parse/lexer/move_model.rs: find_token, get_name_token", "crates/syntax/src/parse/lexer.rs: aptos_token_kind_to_syntax_kind"]}
{"id": "C57", "title": "Rename accepts exactly identifiers", "statement": "A new name is accepted as an identifier if and only if it consists of letters, digits and underscores, does not start with a digit, and is neither a reserved word nor a single underscore. Names accepted as labels or as underscore have that form.", "quantifier": "for every text entered as a new name", "why_tests_cant": "The set of texts a user may enter is infinite.", "anchors": ["crates/ide-db/src/rename.rs: IdentifierKind::classify", "crates/syntax/src/parse/lexer.rs: parse_single_token"]}
{"id": "C58", "title": "The content of a string literal is what is between its quotes", "statement": "For every string token the text without quotes is the text between the opening and the last quote; for an unterminated string it is the whole token; computing it never panics.", "quantifier": "for every string token, terminated or not", "why_tests_cant": "String contents are unbounded; unterminated strings and strings with escaped quotes are easily missed.", "anchors": ["crates/syntax/src/ast/token_ext.rs: QuoteOffsets::new, IsString::text_without_quotes"]}
{"id": "C59", "title": "Lexical scoping and shadowing of local names", "statement": "A name used inside a function resolves to the binding of the innermost enclosing scope that binds it: patterns of lambda, for, match arm, block, parameters, type parameters are visible exactly in the constructs they belong to, and an inner binding hides an outer one of the same name.", "quantifier": "for every nesting of blocks, loops, lambdas, match arms and items, every name and every position", "why_tests_cant": "The set of scopes between the reference and the root of the file is arbitrary; fixtures fix the nesting.", "anchors": ["crates/lang/src/nameres/name_resolution.rs: get_entries_from_walking_scopes", "crates/lang/src/nameres/resolve_scopes.rs", "crates/lang/src/nameres/scope.rs"]}
{"id": "C60", "title": "Applying a lazily resolved code action makes the edit that was offered", "statement": "When the client asks for the edit of a code action it was offered, and nothing has changed, it gets the edit of that same action; if the file has changed the request is refused.", "quantifier": "for every file, every list of fixes and assists at the cursor, every requested action and every change between the two requests", "why_tests_cant": "The action is identified by a position in a list that is computed again; tests ask for one action of one fixture without other actions and without changes in between.", "anchors": ["crates/aptos-language-server/src/handlers/request.rs: handle_code_action, handle_code_action_resolve, parse_action_id", "crates/aptos-language-server/src/lsp/to_proto.rs: code_action", "crates/ide-db/src/assist_context.rs: add_fix_fallible", "crates/ide/src/lib.rs: assists_with_fixes"]}
{"id": "C61", "title": "Signature help shows the signature and marks the right parameter", "statement": "The signature sent to the client is the list of the parameters, or fields, separated by commas; each parameter is described by a part of that text which is exactly the parameter, whether the client takes offsets or not; and the parameter that is marked is the one the cursor is in.", "quantifier": "for every list of parameters, every text of a parameter, every position and both kinds of client", "why_tests_cant": "The offsets depend on the lengths and the characters of all earlier parameters and the tests look at the internal ranges of a few ASCII signatures, not at what is sent.", "anchors": ["crates/ide/src/signature_help.rs: push_param, signature_help_for_call, signature_help_for_type_args, signature_help_for_struct_lit", "crates/aptos-language-server/src/lsp/to_proto.rs: signature_help"]}
{"id": "C62", "title": "Find usages reports exactly the uses of an item", "statement": "Every place that is reported as a usage of an item is a name with the text of the item's name that refers to the item, no place is reported twice, and every name that refers to the item is reported, wherever in the program it can be used.", "quantifier": "for every set of files, every classification of names, every item and name, and every place at which a local name can be found", "why_tests_cant": "The tests look at a few programs with one or two uses. Completeness is about all places where a name can refer to an item, and depends on the search for the text, the token at each place and the part of the program that is searched agreeing with the scopes of name resolution.", "anchors": ["crates/ide-db/src/search.rs: item_search_scope, ident_pat_search_scope, SearchScope, FindUsages::search, find_matches, find_nodes, found_name_ref, found_name", "crates/ide-db/src/defs.rs: NameClass, NameRefClass", "crates/ide/src/references.rs: find_all_refs", "crates/ide/src/highlight_related.rs"]}
{"id": "C63", "title": "Renaming changes names and nothing else", "statement": "The edits of a rename replace the name in the definition and every name that refers to it, in every file, and nothing else; the new texts parse to the same trees with the new name at those leaves; and after renaming a local variable or parameter every name in scope of it refers to what it referred to before.", "quantifier": "for every set of files, every classification of names, every item, every new name, every tree of the parser and every place in it", "why_tests_cant": "The tests rename a handful of items and compare texts. That no other place changes, that the result has the same structure, and that no name is captured are statements about all programs and all names, and depend on search, edits, lexer, parser and name resolution together.", "anchors": ["crates/ide/src/rename.rs: prepare_rename, rename, find_definition", "crates/ide-db/src/rename.rs: rename_named_element, source_edit_from_references, source_edit_from_name_ref, source_edit_from_name, source_edit_from_def, IdentifierKind", "crates/ide-db/src/search.rs: fetch_all", "crates/ide-db/src/source_change.rs: insert_source_edit", "crates/syntax/src/ast/node_ext/struct_lit_field.rs", "crates/syntax/src/parse/lexer.rs", "crates/syntax/src/parse/grammar.rs", "crates/lang/src/nameres/name_resolution.rs"]}
{"id": "C64", "title": "An expression is read as its operators say", "statement": "The tree of an expression groups its operands by the levels of the operators, from left to right within a level, as calls, fields and indexes before unary operators and those before binary ones; parentheses override it; a well-formed expression has this tree and no other, and is parsed without an error whatever comes before it in the file and whatever white space and comments are in it.", "quantifier": "for every expression tree of any depth, every text that writes it, every place in a file, every list of events before it", "why_tests_cant": "The parser tests compare dumps of some files. The grouping of all combinations of operators at all depths, with the recovery sets, the rollback of type arguments and the rewriting of finished nodes, is an infinite family.", "anchors": ["crates/syntax/src/parse/grammar/expressions.rs: expr_bp, current_op, lhs, postfix_expr, call_expr, index_expr, method_call_or_dot_expr, cast_expr, EXPR_FIRST", "crates/syntax/src/parse/grammar/expressions/atom.rs: atom_expr, literal, paren_or_tuple_or_annotated_expr, return_expr", "crates/syntax/src/parse/grammar/paths.rs", "crates/syntax/src/parse/grammar/type_args.rs", "crates/syntax/src/parse/parser.rs", "crates/syntax/src/parse/text_tree_sink.rs"]}
{"id": "C65", "title": "A quick fix that rewrites an expression leaves the rest of the code as it was read", "statement": "Replacing `f(r, ...)` by `r.f(...)`, `x = x + y` by `x += y`, `*vector::borrow(&v, i)` by `v[i]`, `borrow_global<T>(a)` by `T[a]`, and removing a redundant cast gives a text that is parsed without an error to the old tree with the new expression where the old one was: every operator around it keeps its operands, the new expression has the old operands, and making the new node never panics.", "quantifier": "for every expression the fix is offered for, every place in every expression, every function body, every white space and comments", "why_tests_cant": "The tests of each fix have a few texts, mostly with the rewritten expression alone in a statement. Whether parentheses are needed depends on the operators in the operand and on those around the expression, to any depth.", "anchors": ["crates/ide-diagnostics/src/handlers/can_be_replaced_with_method_call.rs: fixes", "crates/ide-diagnostics/src/handlers/can_be_replaced_with_compound_expr.rs: can_be_replaced_with_compound_expr, fixes", "crates/ide-diagnostics/src/handlers/can_be_replaced_with_index_expr.rs: fixes", "crates/ide-diagnostics/src/handlers/redundant_cast.rs: fixes", "crates/ide-diagnostics/src/handlers/replace_with_resource_index_expr.rs: fixes", "crates/syntax/src/ast/syntax_factory.rs: ast_from_text", "crates/syntax/src/ast/syntax_factory/exprs.rs: expr_from_text"]}
{"id": "C66", "title": "An import that is reported as unused can be removed", "statement": "If the server marks a use statement, or an import in a use group, as unused, then no name in the module, specification or block (or in the specifications of the module in other places) may mean anything else after the import is removed; if it marks an import as used in tests only, the same holds for every name outside of tests. All imports whose name no path mentions are marked, a statement is marked as a whole exactly if all its imports are unused, and nothing is marked while a use statement is unfinished.", "quantifier": "for every text, every module, specification and block, every set of imports, aliases and groups, every nesting of blocks, every path", "why_tests_cant": "The tests have one or two imports and one use. Which import a name uses depends on all imports of all blocks around it and of the specifications of the module, on aliases, on the scopes of tests and of specifications, and on what the path names; the analysis decides from names only, apart from name resolution, so the two can drift apart.", "anchors": ["crates/ide-diagnostics/src/handlers/unused_import.rs: find_unused_imports, find_unused_use_items, unused_use_kind", "crates/ide-diagnostics/src/handlers/unused_import/use_items.rs: find_use_items_hit_with_scopes, find_use_item_hit_for_path, BasePathType", "crates/ide-diagnostics/src/handlers/reduced_scope_import.rs: find_use_items_with_redundant_main_scope", "crates/lang/src/hir_db/use_items_ext.rs: combined_use_items, reachable_paths", "crates/lang/src/nameres/use_speck_entries.rs: use_items_for_stmt", "crates/lang/src/nameres/path_kind.rs: path_kind"]}
{"id": "C67", "title": "A fully qualified path means the items of that name in the module at that address", "statement": "`0x1::m` names the modules `m` whose address is the same, wherever they are declared in the dependencies of the file; `0x1::m::f` names the items `f` of the one such module that may be used there, with the functions taken in calls and the other item elsewhere; `0x1::m::E::V` names the variant `V` of the enum `E` of that module. What is in scope at the place makes no difference. Named addresses mean the same as their numbers, and paths in `use`, in use groups and in friend declarations follow the same rule, with `Self` for the module.", "quantifier": "for all files and dependencies, all modules, items and specifications in them, all addresses and their assignments, all places of a path, everything that may be in scope", "why_tests_cant": "The fixtures have one or two modules at one address and little in scope. Which declarations a path means is decided by all modules of all dependencies, by how each writes its address, by the namespaces of the place, by fallbacks for names of addresses, and by visibility; a fallback that fires at the wrong time shows only for rare combinations of names.", "anchors": ["crates/lang/src/nameres/path_resolution.rs: resolve_path, get_path_resolve_variants, refine_path_expected_type, remove_variant_ident_pats", "crates/lang/src/nameres/name_resolution.rs: get_modules_as_entries, get_qualified_path_entries", "crates/lang/src/nameres/path_kind.rs: path_kind", "crates/lang/src/hir_db.rs: get_modules_in_file", "crates/syntax/src/ast/node_ext/module.rs: address_ref"]}
{"id": "C68", "title": "\"Organize imports\" takes out the unused imports, all at once, and nothing else", "statement": "A fix that is made with the syntax editor makes all the changes it records, as if they were made at the same time on the text. Taking one item out of a list takes out one piece of the text: the item, the trivia around it and one comma. \"Organize imports\" takes out every import that is marked as unused, with its comma; the other items stay as they are. If just one item of a group is left, the group becomes a plain import of that item.", "quantifier": "for all files, all trees of a file, all sets of changes, all groups with any number of items and any white space between them, all sets of unused items", "why_tests_cant": "The fixtures of \"Organize imports\" take at most one item out of a group. Each item takes the white space and the comma next to it along, and so may its neighbour; whether two items get in each other's way depends on which of them are unused and on how the list is laid out. The editor refuses all changes of the file when one element is to be taken out twice.", "anchors": ["crates/syntax/src/syntax_editor.rs: SyntaxEditor::delete, delete_comma_sep_list_element, replace, insert", "crates/syntax/src/syntax_editor/edit_algo.rs: apply_edits", "crates/syntax/src/syntax_editor/node_ext/use_speck.rs: UseSpeck::delete", "crates/syntax/src/syntax_editor/node_ext/use_stmt.rs: delete_group_use_specks, replace_root_use_speck_with, simplify_root_self, add_attribute", "crates/ide-diagnostics/src/handlers/unused_import/organize_imports.rs: organize_imports_in_file"]}
{"id": "C69", "title": "\"Add import\" offers the right items and adds just the import", "statement": "For a name alone that is not resolved, \"Add import\" offers exactly the modules and items of that name, in a namespace that the place asks for, of all modules that can be reached, under their full names; with more than three of them it offers none. The fix adds one `use` to the nearest module around the name, for tests only if the name is in a test and the module is not. It is a new statement on a line of its own, with the indentation of the module and four more, after the last `use`; or, if the last statement for the module is there already, that one becomes a group of what it imports, with the aliases, and of the new name. Nothing else in the file changes, and the new statement imports the item of the title.", "quantifier": "for all projects, all files, all places of a name, all modules with any number of `use` statements, all groups with any number of items and aliases, all names of addresses, modules and items", "why_tests_cant": "The fixtures have a few modules with one or two `use` statements. Whether something is offered depends on all modules of the project; the statement is built by parsing text that contains names of the user's program, and it is put between tokens of any layout.", "anchors": ["crates/ide-diagnostics/src/handlers/unresolved_reference/auto_import.rs: add_autoimport_fixes", "crates/ide-db/src/imports.rs: add_import_for_import_path", "crates/syntax/src/syntax_editor/node_ext/use_stmt.rs: add_group_item", "crates/syntax/src/ast/syntax_factory/paths.rs", "crates/lang/src/hir_db.rs: import_candidates", "crates/lang/src/item_fq_name.rs"]}
{"id": "C70", "title": "The outline shows the declarations of a file, nested as in the file", "statement": "The outline of a document has one symbol for each declaration with a name and no others. A symbol is inside another one exactly if its declaration is inside the other with none between, and symbols come in the order of the document. It has the name, the kind and the range of the declaration, and the range of the name, as positions in the encoding of the client. The range of the name and those of the symbols inside are in the range of the symbol, and symbols side by side do not overlap. A client that cannot show a tree gets the same symbols as a list in the order of the document, each with the name of the symbol it is inside. The server does not panic.", "quantifier": "for all texts that parse, trees of any depth, all three encodings of positions", "why_tests_cant": "The tree is rebuilt from a list with numbers of parents, popped from its end, with children reversed at two places. Fixtures have two or three levels; whether each pop finds its parent in place and each list is reversed once is a fact about trees of any shape.", "anchors": ["crates/ide/src/file_structure.rs: file_structure", "crates/ide-db/src/lib.rs: ast_kind_to_symbol_kind", "crates/aptos-language-server/src/lsp/to_proto.rs: symbol_kind, lsp_range", "crates/aptos-language-server/src/handlers/request.rs: handle_document_symbol"]}
{"id": "C72", "title": "Accessors that take a part of the tree for granted find it", "statement": "In the tree of any text that parses, with or without errors, each node of the 19 kinds whose accessor says \"required by the parser\" and panics otherwise has the part it looks for: a name has its identifier, a path expression its path, a method call its receiver. A name is one identifier, the name of something that is used is one identifier or one number, and there is no white space or comment in either.", "quantifier": "for all texts, in all builds, and all nodes of the tree", "why_tests_cant": "The parser makes a tree of any text, and error recovery can leave out any part. The accessors are called from everywhere on trees of texts that are being edited; that no order of tokens makes a node without its part is a statement about all texts and each function of the grammar.", "anchors": ["crates/syntax/src/ast/generated/nodes.rs: the accessors with expect(\"... required by the parser\")", "crates/syntax/src/parse/grammar.rs", "crates/syntax/src/parse/parser.rs: Marker::complete, CompletedMarker::precede", "crates/syntax/src/parse/text_tree_sink.rs", "crates/lang/src/types/patterns.rs: collect_pat_bindings"]}
{"id": "C71", "title": "A search for workspace symbols finds every matching declaration once", "statement": "A search for workspace symbols does not panic. Its answers are the modules, items of modules, fields and variants of all packages whose name has the characters of the query in order (a letter of the query in lower case also stands for the capital letter), each once, in the order of the names in lower case, except those of the built-in file and names with two underscores in front that were not asked for. Each answer has the name, the kind, the file and the range of the name. No more are given than the limit, 128 unless another is set.", "quantifier": "for all workspaces of parsed files in which each package has fewer than 2^32 symbols, all queries and all limits", "why_tests_cant": "The index is a map from lower-case names to ranges of a sorted list, packed into 64 bits, and the search joins the maps of all packages and checks every name again. That no name falls between two ranges, for all lists of names that differ in case only, and that the automaton passes all that the check accepts, are statements about all lists and queries.", "anchors": ["crates/ide-db/src/symbol_index.rs: Query::search, search_maps, SearchMode::check, world_symbols", "crates/ide-db/src/symbol_index/collector.rs", "crates/ide-db/src/symbol_index/sym_db.rs: SymbolIndex::new, world_symbols_in_package", "crates/ide/src/lib.rs: symbol_search", "crates/ide/src/navigation_target.rs: from_syntax_loc", "crates/aptos-language-server/src/handlers/request.rs: handle_workspace_symbol"]}
{"id": "C73", "title": "A variable is reported as unused exactly when nothing uses it, and the fix changes nothing else", "statement": "A variable or parameter gets the warning 'Unused variable' or 'Unused parameter' with its name and range if no name refers to it and it is none of: a name with an underscore in front, an enum variant, a field of a schema, a parameter repeated in a specification, a variable next to an include, the receiver of a method, a parameter of a test or of a function without a body. A variable that some name refers to is not reported. The fix puts an underscore in front of the name, the file then parses to the same tree but for that name, and every other name refers to what it referred to before.", "quantifier": "for all files, bindings and names that refer to them", "why_tests_cant": "The check is a text search in a range that is computed from the owner of the binding, so it is right only if every place from which a binding can be named is in that range, for every nesting of blocks, lambdas, loops and specifications. That no other name changes its meaning with the fix is a statement about all names in the file.", "anchors": ["crates/ide-diagnostics/src/handlers/unused_variables.rs: check_unused_ident_pat, fixes", "crates/ide-db/src/search.rs: item_search_scope, ident_pat_search_scope, at_least_one", "crates/syntax/src/ast/node_ext/param.rs: is_self, any_fun", "crates/syntax/src/ast/node_ext/ident_pat_owner.rs: kind"]}
{"id": "C74", "title": "Missing fields and wrong numbers of arguments and type arguments are reported, and nothing else is", "statement": "A struct literal that leaves out a declared field, and a struct pattern without `..` that does not mention one, get one error that lists all such fields in the order of the declaration. A tuple pattern without `..` gets one error exactly if its number of fields is not the declared one. A call gets one error exactly if the number of its arguments is not what is called takes: at the closing parenthesis if there are too few, at the first that is too many otherwise. A path or a method call with type arguments gets errors exactly if their number is not the number of type parameters, and a struct used as a type without type arguments exactly if it has type parameters. Nothing is reported where it is not known what a name means.", "quantifier": "for all files, and all literals, patterns, calls, paths and declarations in them", "why_tests_cant": "The reports depend on how fields are written (in full, in short, qualified, repeated), on the order and number of declared fields, and on the combination of the kind of a declaration with the place of the path. Tests try some of the combinations; that no other is reported or missed is a statement about all of them.", "anchors": ["crates/ide-diagnostics/src/handlers/missing_fields.rs: missing_fields_in_struct_lit, missing_fields_in_struct_pat, missing_fields_in_tuple_struct_pat", "crates/ide-diagnostics/src/handlers/call_params.rs: check_value_arguments", "crates/ide-diagnostics/src/handlers/missing_type_arguments.rs: missing_type_arguments, check_type_arg_list", "crates/syntax/src/ast/node_ext/struct_lit_field.rs: field_name", "crates/syntax/src/ast/node_ext/struct_pat_field.rs: field_name"]}
{"id": "C75", "title": "Of nested type errors the innermost is shown, and no type error goes unseen", "statement": "Of the type errors found in a file, those with unknown types are not shown. Each of the others is shown, with its message and range, unless there is another one inside of its range, in which case that one is shown. The errors are shown in the order of the text, no two at the same range, and do not depend on the order in which they are found.", "quantifier": "for all lists of type errors", "why_tests_cant": "What is shown depends on how the ranges of all errors lie to each other and on the order in which the inference finds them. A test fixes one file and thereby one order; that nothing is lost is a statement about all lists of errors.", "anchors": ["crates/ide-diagnostics/src/handlers/type_checking.rs: type_check, register_type_error", "crates/lang/src/types/inference/combine_types.rs: TypeError"]}
{"id": "C76", "title": "Fixes that write an expression shorter leave it the same expression", "statement": "The fixes that replace `x = x + y` by `x += y`, `*vector::borrow(&v, i)` by `v[i]`, `m::f(&x, y)` by `x.f(y)`, `borrow_global<T>(a)` by `&T[a]`, and that remove a redundant cast, can be applied wherever the expression stands: the new text is read as the surrounding expression with exactly the new expression in the place of the old one, the operands keep their groups, and the operator, the receiver, the index and the arguments are those of the old expression. The new expression calls the same functions as often.", "quantifier": "for all expressions of the model, and all places in larger expressions", "why_tests_cant": "Whether a text without parentheses is read as the tree that was meant depends on the operators around it. The tests apply each fix at a few places; that it may be applied anywhere is a statement about all surrounding expressions.", "anchors": ["crates/ide-diagnostics/src/handlers/can_be_replaced_with_compound_expr.rs", "crates/ide-diagnostics/src/handlers/can_be_replaced_with_index_expr.rs", "crates/ide-diagnostics/src/handlers/can_be_replaced_with_method_call.rs", "crates/ide-diagnostics/src/handlers/replace_with_resource_index_expr.rs", "crates/ide-diagnostics/src/handlers/redundant_cast.rs", "crates/syntax/src/ast/syntax_factory/exprs.rs: index_expr, method_call_expr, expr_from_text"]}
{"id": "C77", "title": "Types that are written alike in a message are the same type", "statement": "In the messages about types, two types have the same text exactly if they are the same: the same type of the language, the same struct or enum by its full name with the same arguments, the same type parameter by its name, and the same parts in the same order. A mismatch is therefore passed over in silence exactly if both types are the same, and two mismatches with the same message have the same actual and the same expected type. A hint about a struct of another package tells its module and name.", "quantifier": "for all types of any depth and all names", "why_tests_cant": "That a text can be read in one way only is a statement about all pairs of types. The diagnostics compare the texts of types to decide whether a mismatch is shown, and a test sees one pair at a time.", "anchors": ["crates/lang/src/types/render.rs: render, render_ty_var, render_fq_name, render_type_args, render_type_list", "crates/lang/src/nameres/fq_named_element.rs: fq_identifier_text, module_and_item_text", "crates/lang/src/semantics.rs: render_ty", "crates/ide-diagnostics/src/handlers/type_checking.rs: register_type_error"]}
{"id": "C78", "title": "The location of a declaration stands for it and for nothing else", "statement": "Two different nodes with a token or a name directly in them, as declarations have, never have the same location, in one file or in two. The location of such a node leads back to it, unless it is wrapped in a node of the same kind with the same range, and the scope recorded for it is its own. A location leads to a node of the current tree with its kind and range, or to nothing if there is no such node, also if the text has changed since.", "quantifier": "for all texts that parse, all nodes of their trees and all locations", "why_tests_cant": "Locations are kinds and ranges, and are compared and looked up instead of nodes everywhere above the parser. Whether two nodes can have the same one depends on the shapes of all trees that the parser makes, with errors too.", "anchors": ["crates/lang/src/loc.rs: SyntaxLoc::new, to_ast, to_syntax_node, get_source_file", "crates/lang/src/item_scope.rs: item_scope", "crates/syntax/src/parse/grammar.rs: name"]}
{"id": "C79", "title": "A reference is reported as unresolved exactly when it does not mean one thing", "statement": "What is reported as an unresolved reference is a word of a path, a field or a method that does not mean exactly one thing that can be used there, with the range of that word; a name that stands both for a field and for its variable is in order, and addresses are never reported. Of a path only the first such word is reported. If nothing is reported for a path outside of the documented exceptions, every word of it is an address or in order; a name in a group of a `use` may also be silent because what is before the group is not in order. Fields, and methods of receivers with a known type, are reported exactly when they are not in order. Nothing is reported twice at the same place of a file. The message gives a reason why something cannot be used only if it is the reason for the only thing of that name, and speaks of duplicate dependencies exactly if there are things from two packages.", "quantifier": "for all trees, all references in them and all results of name resolution; for the places of reports, all texts that parse", "why_tests_cant": "The check walks over the parts of paths with early returns at several places and different rules for each kind of path. Whether some combination of qualifiers is skipped without a report cannot be seen from the paths of the tests.", "anchors": ["crates/ide-diagnostics/src/handlers/unresolved_reference.rs: find_unresolved_references, unresolved_path, is_special_msl_path, try_check_resolve", "crates/lang/src/nameres/path_kind.rs: path_kind", "crates/lang/src/nameres/scope.rs: into_field_shorthand_items", "crates/syntax/src/ast/node_ext/path.rs: base_path, root_path"]}
{"id": "C80", "title": "A missing ability of a field is reported exactly when it is needed", "statement": "A report on a field of a struct is true: the struct is declared with an ability, the type of the field has not the ability that this one needs (`store` for `key`, itself otherwise), and the report is on the field and names what is missing. If the struct is declared with `key`, `copy` or `drop` and the type of a field has not what that needs, there is exactly one report. If every ability of the struct is met, there is none, and there is none if the type of the field depends on a type parameter.", "quantifier": "for all structs, fields, types and declarations of abilities", "why_tests_cant": "The check combines the abilities of a declaration with those computed for any type, and reports only the first that is missing. The tests have some combinations of abilities with some types; which combinations are silent cannot be seen from them.", "anchors": ["crates/ide-diagnostics/src/handlers/ability_checking.rs: struct_field_type_ability_check", "crates/lang/src/types/abilities.rs: Ability::from_ast, Ty::abilities", "crates/lang/src/types/fold.rs: has_ty_type_param", "crates/syntax/src/ast/node_ext/struct_.rs: abilities", "crates/syntax/src/ast/node_ext/named_field.rs: fields_owner"]}
{"id": "C81", "title": "A type that contains itself is reported at each place where it is named", "statement": "For a field of a struct, or of a variant of an enum, each path in its type, at any depth, that means this struct or enum is reported with the range of the path and the name of the struct or enum, and no other path is. The check of such a field ends without a panic in every parsed file, and reports nothing if only assists are asked for.", "quantifier": "for all texts that parse, all fields in them and all results of name resolution", "why_tests_cant": "Paths may be at any depth in a type and mean anything of any file. Tests try a few fields; that no path is missed or reported in vain is about all types.", "anchors": ["crates/ide-diagnostics/src/handlers/type_checking.rs: recursive_struct_check, register_type_error", "crates/syntax/src/ast/node_ext/fields_owner.rs: struct_or_enum", "crates/syntax/src/ast/node_ext/enum_.rs: enum_", "crates/syntax/src/ast/generated/nodes.rs: PathType::path"]}
{"id": "C82", "title": "Inlay hints stand where they belong, and a part of a file gets the hints of that part", "statement": "Asking for the hints within a range gives exactly the hints of the file that lie within it, in the same order. A hint whose details are to be sent later is found again by its hash, if no other hint of the file has that hash. The hints for parameters are exactly these: each argument gets, where it begins, the name of its own parameter without leading underscores (in a method call the receiver takes the first one), unless its text contains that name, the function has a single parameter or it is one of the well-known ones. A hint for a type stands after the name of a variable of a `let` or a lambda that has no written type, whose name does not begin with an underscore and whose type is known, and each such variable gets one, subject to the settings. A `<` stands after the `..` of each range with an end.", "quantifier": "for all syntax trees, ranges, settings and results of type inference", "why_tests_cant": "The walk skips subtrees outside the range, and a comment in the code says that this may miss hints. Tests ask for the hints of whole small files; that no range of any file loses a hint, and that names and arguments never shift against each other, is about all trees.", "anchors": ["crates/ide/src/inlay_hints.rs: inlay_hints, inlay_hints_resolve, hints, InlayHintLabel::prepend_str", "crates/ide/src/inlay_hints/param_name.rs: hints", "crates/ide/src/inlay_hints/ident_pat.rs: hints", "crates/ide/src/inlay_hints/range_exclusive.rs: hints", "crates/lang/src/node_ext/callable.rs: CallableInfo::params", "crates/aptos-language-server/src/lsp/to_proto.rs: inlay_hint"]}
{"id": "C83", "title": "Completion of a path offers what the path can mean there", "statement": "Every item that a path means and that may be used at the place is offered when the path is completed, unless it is held back on purpose: it is in the use group already, it is a builtin function on resources in a specification, it is neither a structure nor an enum in `acquires`, or it is a test. What is offered under the name and in the namespaces of a path is what the path means. For a name without qualifier these are the names in scope that no inner scope hides. Every item of the modules that can be reached which may be used at the name is offered, as it is if it is in scope and with an import otherwise, and never both; an item that is offered with an import is what the name means once the import is there.", "quantifier": "for all files, paths, names in scope, modules of the package and its dependencies, and settings of the place", "why_tests_cant": "Completion walks the scopes without a name and with more namespaces than resolution, so that the two agree only if hiding of names works separately for each name and namespace in every nesting of scopes. Fixtures compare lists for a few files.", "anchors": ["crates/ide-completion/src/completions/reference/paths.rs: add_path_completions_from_the_resolution_entries, add_out_of_scope_completion_items, render_scope_entry", "crates/lang/src/nameres/path_kind.rs: path_kind, path_namespaces", "crates/lang/src/nameres/path_resolution.rs: get_path_resolve_variants", "crates/lang/src/nameres/name_resolution.rs: get_entries_from_walking_scopes"]}
{"id": "C84", "title": "Tests and transactions can be run from where they are declared, and run what they say", "statement": "The tests, the entry functions that are no tests and the modules with tests of a file can be run from it, each from its own place, once and in the order of the file, and nothing else beside what the prover is run on. Running a test runs it, and running the tests of a module runs all of them. Running one test runs no other test, and the arguments that the user has configured are passed on as they are.", "quantifier": "all files that can be parsed, all tests at all addresses, all configured arguments", "why_tests_cant": "A test fixes one file with a few functions. Which other tests have a name in which the filter occurs depends on all names of all modules in the package, and which arguments are dropped depends on what the user has configured.", "anchors": ["crates/ide/src/runnables.rs:74-202", "crates/ide-db/src/helpers.rs:26-40", "crates/ide/src/navigation_target.rs:194-232", "crates/lang/src/nameres/fq_named_element.rs:48-151", "crates/aptos-language-server/src/lsp/to_proto.rs:874-913"]}
{"id": "C85", "title": "Completion of fields, labels and items of specifications offers what can stand there", "statement": "In a struct literal or pattern exactly the declared fields that no other field of it gives are offered, in the order of the declaration, with the field at the cursor counted as not given; between the fields these are the fields that the literal is reported to leave out, so a literal without offers is not reported. At a label exactly the labels of the loops around it inside of its function or lambda are offered, and each means one of these loops. After `spec` exactly the functions that are no tests, the structs and the enums of the module are offered, and each name means them.", "quantifier": "all files that can be parsed, all literals and patterns in them, all cursors, all nestings of loops and lambdas", "why_tests_cant": "Whether what is offered agrees with what is reported and with what names mean is a statement about two features for all places of the cursor and all fields that are there already; tests look at one feature and one cursor at a time.", "anchors": ["crates/ide-completion/src/completions/reference.rs:51-134", "crates/ide-completion/src/completions/reference/labels.rs:16-37", "crates/lang/src/nameres/labels.rs:16-62", "crates/lang/src/nameres.rs:234-243", "crates/syntax/src/ast/node_ext/module.rs:50-56"]}
{"id": "C86", "title": "The specifications of a function are found from the function, each once", "statement": "The specifications of a function are exactly those that name it in its module, or in a specification of its module in the same file or in a related file, if it is no test and nothing else that can be specified in the module has its name; each is found once. A function has a lens for its specifications exactly if it has one, and the lenses are in the order of the text. Going to the specifications of a function leads exactly to the places where they name it, and nowhere if there are none.", "quantifier": "all files that can be parsed, all modules and functions in them, all sets of related files and whatever the paths of specifications of modules lead to", "why_tests_cant": "The specifications are gathered from several files under locations of ranges and kinds, and are looked up by location later; that no two functions share a location and nothing is lost or found twice is a statement about all files and all relations between them.", "anchors": ["crates/lang/src/item_specs.rs:13-50", "crates/lang/src/nameres/node_ext.rs:42-58", "crates/lang/src/node_ext/item_spec.rs:22-28", "crates/lang/src/node_ext/item.rs:63-76", "crates/ide/src/goto_specification.rs:14-44", "crates/ide/src/annotations.rs:47-122", "crates/base-db/src/source_db.rs:83-87"]}
{"id": "C87", "title": "The prover can be run on exactly what is specified in a file", "statement": "From a file the prover can be run exactly on the modules that `spec address::module {}` in it specifies and on the functions that `spec function {}` in it specifies, in their module or in a specification of it, at the place that names them; a function by `module::function`. Each specification that is found from a function can be proved from the file that it is in. What the prover is run on tells which function is meant.", "quantifier": "all files that can be parsed, all modules, functions and specifications in them, whatever the paths of specifications of modules lead to", "why_tests_cant": "That two features, the way from a function to its specifications and the lenses at specifications, agree, and that the names passed on tell the functions apart, are statements about all files; tests look at one lens in one file.", "anchors": ["crates/ide/src/runnables.rs:90-110", "crates/ide/src/runnables.rs:158-184", "crates/ide/src/navigation_target.rs:101-132", "crates/ide-db/src/helpers.rs:41-58"]}
{"id": "C88", "title": "Replacing `public(friend)` by `friend` keeps who can use the item", "statement": "The warnings that `public(friend)` can be `friend` and that `public(package)` can be `package` are there for exactly these modifiers. The fix keeps the word and all spaces and comments in their order and deletes the rest of the modifier; the item is visible to the same code as before. In the new text the lexer finds exactly the tokens that are left.", "quantifier": "all items with a modifier of any of the forms of the language, all spaces and comments in it; for the text all tokens around it, all segmentations into graphemes", "why_tests_cant": "Tests compare one text before and after the fix; that the item remains visible to the same code, and that the text around the modifier is read as before, is about all files.", "anchors": ["crates/ide-diagnostics/src/handlers/replace_with_friend.rs:11-60", "crates/ide-diagnostics/src/handlers/replace_with_package.rs:11-60", "crates/syntax/src/ast/node_ext/visibility.rs:9-41"]}
{"id": "C89", "title": "The same names are highlighted from each of them", "statement": "With the cursor in or right behind a name, exactly the name of the item that it refers to and all names that refer to that item are highlighted in the file, each once. With the cursor in any of the names that are highlighted, the same names are highlighted.", "quantifier": "all files that can be parsed, all positions of the cursor, all ways in which names are classified as the code does", "why_tests_cant": "That what is highlighted does not depend on which of the occurrences the cursor is in is about all pairs of occurrences in all files; tests put the cursor at one of them.", "anchors": ["crates/ide/src/highlight_related.rs:12-43", "crates/ide/src/references.rs:71-98", "crates/ide-db/src/search.rs:340-446", "crates/ide-db/src/defs.rs:103-160"]}
{"id": "C90", "title": "The documentation of an item is the comments above it", "statement": "An item takes the comments above it up to the first thing that separates them: a comment that documents what is around it, or an empty line that is not directly below documentation. In the hover over the item the documentation comments in front of its name are shown, all of them in their order, one line each, without the characters that open and close a comment and without white space around. A constant used as an error code is reported as undocumented exactly if there are none.", "quantifier": "all files that can be parsed, all items with a name, all sequences of comments and white space above an item", "why_tests_cant": "Where the documentation of an item begins depends on the whole sequence of comments and empty lines above it; there are unboundedly many, and tests show a few.", "anchors": ["crates/syntax/src/parse/text_tree_sink.rs:156-193", "crates/syntax/src/ast/traits/docs.rs:10-29", "crates/ide/src/hover.rs:74-106", "crates/ide-diagnostics/src/handlers/error_const_docs.rs:36-66"]}
{"id": "C91", "title": "Taking out what is no longer needed leaves the rest", "statement": "A method call is reported as written with a redundant `::` exactly if its type arguments begin with one; the fix takes out exactly these two characters, and the call stays a call. A function is reported for its `acquires` exactly if it has one; the fix takes out exactly that and the white space behind it.", "quantifier": "all files that can be parsed, all method calls and functions in them", "why_tests_cant": "That nothing else of the file changes, and that the rest is read as before, is about all surroundings of a call; tests apply the fix in a few.", "anchors": ["crates/ide-diagnostics/src/handlers/simplify_turbofish.rs:7-49", "crates/ide-diagnostics/src/handlers/unused_acquires.rs:11-57", "crates/syntax/src/parse/grammar/expressions.rs:256-290", "crates/syntax/src/parse/grammar/type_args.rs:43-84"]}
{"id": "C92", "title": "Writing a field in its short form keeps the field and its value", "statement": "A field of a struct or schema literal is reported exactly if its value is written as its name, and a field of a struct pattern exactly if it is bound to a variable written as its name. The fix replaces the field by the name alone and leaves the rest of the file; the new field gives (or mentions) the same field as before, with the same value (or variable).", "quantifier": "all files that can be parsed, all fields of literals and patterns in them", "why_tests_cant": "Tests rewrite a few fields; that the short form always stands for the same field and value, wherever it ends up in the file, is about every field and every surrounding text.", "anchors": ["crates/ide-diagnostics/src/handlers/field_shorthand.rs:11-174", "crates/syntax/src/ast/node_ext/struct_lit_field.rs:55-69", "crates/syntax/src/ast/node_ext/struct_pat_field.rs:18-30", "crates/syntax/src/ast/node_ext/schema_lit_field.rs:29-36", "crates/syntax/src/ast/syntax_factory/exprs.rs:122-177"]}
