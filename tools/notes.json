{
 "C01": {
  "note": "Whole model of TextEdit::apply; panic paths excluded exactly by the stated validity conditions."
 },
 "C02": {
  "note": "Builder accepts iff edits are pairwise disjoint; result independent of the order of non-insertions."
 },
 "C03": {
  "status": "partial",
  "note": "Merging keeps both edits when accepted; the property is false in two respects, proved with witnesses: union is not symmetric, and an overlapping second edit for the same file is dropped by SourceChange::insert_source_edit in release builds."
 },
 "C04": {
  "note": ""
 },
 "C05": {
  "status": "partial",
  "note": "False for the builder (witness proved); holds for union, where identical replacements are merged."
 },
 "C06": {
  "status": "partial",
  "note": "Conversion, recorded ending, round trip and UTF-8 soundness proved for all texts. 'No CRLF left' and idempotence are false for CR CR LF (witness proved), and proved for all other texts."
 },
 "C07": {
  "status": "partial",
  "note": "Any sequence of whole-document and in-order range changes is applied as the protocol says (C07_changes_applied); two disagreements for malformed ranges have witnesses: reversed ranges meet a stale index, and a position inside a surrogate pair panics."
 },
 "C08": {
  "note": "Exact for well-formed ranges (start ≤ end), the only ones the protocol allows."
 },
 "C09": {
  "note": ""
 },
 "C10": {
  "status": "partial",
  "note": "False on lines that are not the last: the column is clamped one byte too far, to the start of the next line (witness). Exact behaviour proved."
 },
 "C11": {
  "status": "partial",
  "note": "Mirroring proved for all histories in which the server does not crash; the crash itself (a file vanishing from disk) is C20. Absence of crashes is proved for histories without vanishing files."
 },
 "C12": {
  "note": ""
 },
 "C13": {
  "status": "partial",
  "note": "False: a forced request followed by a plain one before the operation starts loses the force flag (witness in the queue and in the main loop). Proved: the latest request is the one honoured."
 },
 "C20": {
  "status": "partial",
  "note": "Last-write-wins proved for every batch that is applied; exact condition for the panic; every known file is in its package if no file vanishes; false for deletions, which always panic because the deleted file is in none of the new package roots, and for files created, deleted and created again within one cycle, which get no package (witnesses as full histories)."
 },
 "C21": {
  "note": "For all packages and all usual names; the asymmetry outside the property's scope (a.spec.spec.move) is shown too."
 },
 "C45": {
  "note": ""
 },
 "C46": {
  "note": ""
 },
 "C47": {
  "note": ""
 },
 "C53": {
  "status": "partial",
  "note": "Same effect proved for all edits whose replacements do not touch the identifier; exact condition for the panic; an edit that merely touches the identifier panics (witness)."
 },
 "C14": {
  "note": "For every interleaving of workers, retries, cancellations and the main loop, for clients with distinct request ids."
 },
 "C15": {
  "status": "partial",
  "note": "Every received request is answered or still in flight, everything in flight can always make progress to an answer, and the answer of a worker is the documented one (internal error for a panic, the documented code for a cancellation); false for a synchronous handler that ends in a cancellation (witness: the request is never answered)."
 },
 "C16": {
  "status": "partial",
  "note": "Every request other than shutdown is refused after shutdown; a second shutdown request is answered with success (witness)."
 },
 "C17": {
  "note": ""
 },
 "C18": {
  "note": ""
 },
 "C19": {
  "status": "partial",
  "note": "False: a response with an unknown id, or a second response, panics (witness, exact condition). Proved for clients that answer each request at most once."
 },
 "C54": {
  "note": ""
 },
 "C55": {
  "note": "The 'graph' rebuild at the end of a file-loader scan is not counted as a file change."
 },
 "C22": {
  "note": "Proved for every file system in which no two reachable packages share a name; the witness theorem shows the loader skips a package whose name was already seen."
 },
 "C23": {
  "note": "Loading reads each reachable manifest exactly once and terminates for every (also cyclic) dependency graph."
 },
 "C24": {
  "note": "Proved when all members resolve dependencies and none is reached through a git dependency; the two witnesses show that otherwise the outcome depends on the order of the members."
 },
 "C25": {
  "note": "Losslessness and termination for every text whenever lexing returns; absence of panics only if block comments are ASCII (see C26)."
 },
 "C26": {
  "note": "Exact for ASCII comments; for closed comments the computed length is right if and only if the comment is ASCII. Witnesses show truncation and a panic."
 },
 "C56": {
  "note": "The grapheme segmentation crate is a parameter; only that the first cluster is non-empty is used."
 },
 "C27": {
  "status": "proved",
  "note": "For every kind the parser can look at; the _fails theorem shows what happens for larger kinds, which the parser never looks up."
 },
 "C57": {
  "note": "The segmentation crate is assumed to make ASCII characters clusters of their own (except CR LF)."
 },
 "C28": {
  "note": "all texts through lexer, grammar and sink; leaves are the tokens in order, grouped and renamed; also for any balanced events"
 },
 "C29": {
  "note": "any sequence of marker operations, both rollback forms, and every alternative of the grammar"
 },
 "C30": {
  "note": "whole grammar; fuel linear in the length of the text is always enough; every token is in a leaf"
 },
 "C31": {
  "status": "partial",
  "note": "false: seven panicking texts proved; proved for release builds outside four syntactic hazards"
 },
 "C33": {
  "note": "Proved for every sequence of table operations from the empty table (Reachable)."
 },
 "C34": {
  "note": "Proved for every program of the operations of the context with arbitrarily nested freeze and spec scopes."
 },
 "C35": {
  "status": "partial",
  "note": "False as stated: C35_unknown_fails (panic), C35_cycle_fails (divergence). Proved if in every check one of the types has no type variable and no unknown part, or is a type variable without value (with the exact value it gets, C35_occurs); missing: a weaker sufficient condition for two composite types that both have variables."
 },
 "C36": {
  "status": "partial",
  "note": "False for ranges, callable types and the argument order of is_tys_compatible (four _fails theorems). Proved: soundness for all ground types with these lax rules, and the exact characterisation for ground types without ranges, callable types and tuples of one element."
 },
 "C37": {
  "note": "Proved for every type and substitution, at every position of the type."
 },
 "C38": {
  "note": "Proved for all types."
 },
 "C39": {
  "status": "partial",
  "note": "False for unit, vectors of key values and generic structures (three _fails theorems). Proved: every ability of the reference is computed, and exactly these on types without those parts."
 },
 "C40": {
  "status": "partial",
  "note": "False as stated: C40_case_fails (capital hex digits), C40_decimal_fails (decimal addresses). Proved for hexadecimal addresses with lower-case digits."
 },
 "C42": {
  "status": "partial",
  "note": "Proved when no two nodes of the file share kind and range (empty nodes could); shrinking for #[verify_only]/#[test] items and the lookup are modelled."
 },
 "C43": {
  "note": "Binding order of let statements in a block, including MSL post lets, for names produced by patterns."
 },
 "C44": {
  "status": "proved",
  "note": "For properly nested, non-empty ranges inside the document; C44_overlap_fails shows what happens without nesting."
 },
 "C51": {
  "status": "partial",
  "note": "Proved for signature help; completion passes the cursor offset, which differs just before a comma (C51_completion_fails)."
 },
 "C52": {
  "status": "partial",
  "note": "Innermost loop with the label proved when no other enclosing loop repeats it; a repeated label resolves to nothing (C52_shadow_fails)."
 },
 "C59": {
  "status": "partial",
  "note": "The index of a for loop is visible in its own range expression (C59_for_fails). Items of modules, use imports and builtins are parameters."
 },
 "C41": {
  "status": "partial",
  "note": "Exact rule outside of use statements; in use statements the scope of test-only items is ignored (C41_use_fails). Friend resolution, packages and the builtins module are parameters."
 },
 "C48": {
  "status": "partial",
  "note": "Proved for old trees without empty elements, in any order of the replacements and with any text around; for trees with empty elements the edit can be wrong (C48_empty_fails)."
 },
 "C49": {
  "status": "partial",
  "note": "Containment, progress on selections of some text, nesting and termination are proved for the trees of all texts that parse. That the last range is the whole file needs a tree without empty nodes (C49_whole_partial); otherwise it is false (C49_unfinished_fails)."
 },
 "C50": {
  "status": "partial",
  "note": "Nesting is a partial order; the protocol names are recovered except for Generate (C50_generate_fails), and the empty requested kind offers nothing (C50_only_fails)."
 },
 "C60": {
  "status": "partial",
  "note": "Proved when every offered fix can make its edit and the answer is computed from the same state; false otherwise (C60_fallible_fails, C60_other_file_fails). A stale version of the file is refused."
 },
 "C61": {
  "note": "The texts of the parameters are proved to be what the label consists of, without offsets for every signature, with offsets when all characters are in the basic plane; refuted for an empty signature, other characters and an argument too many."
 },
 "C62": {
  "status": "partial",
  "note": "Proved for every classification of names: what is reported refers to the item and has its name (C62_sound); in parsed files every name in the searched part that refers to the item is reported unless a letter, digit or underscore is directly in front of it (C62_text_partial; the grammar never puts an identifier there in a text without errors, which is not proved); no name is reported twice if the nodes of names have one token (C62_once_partial); the searched part covers every place where name resolution finds a local binding, except outside the block of a function and outside the body of a for (C62_local_partial), and both exceptions occur (C62_proof_fails, C62_loop_fails); uses of a variant in a pattern are never reported (C62_variant_fails); a search limited to a file is exact (C62_one_file)."
 },
 "C63": {
  "status": "partial",
  "note": "Proved for every classification of names: applying the edits gives exactly the text in which the name in the definition and every name in the scope that refers to it is the new one (C63_edits_partial), and that text parses to the same tree with the new name at those leaves and as many errors (C63_tree_partial). Missing there: uses in shorthands of struct literals and patterns, names next to a quote, a name character or a character that is not ASCII, old or new names that are words of the grammar, files with block comments that are not ASCII (see C26), and nodes of names with several tokens. What a single edit does to a shorthand, and to a field that can become one, is proved separately (C63_literal_shorthand, C63_literal_full, C63_pattern_shorthand, C63_pattern_full), as is which new names are accepted and which definition is renamed. For local variables and parameters every name that is looked up in scopes refers to the same definition afterwards if the new name is not in use there (C63_local_partial). Four ways in which the claim is false are shown."
 },
 "C64": {
  "status": "partial",
  "note": "Proved for expressions of names, literals, parentheses, unary and binary operators, casts to paths, fields, indexes, calls and method calls, nested to any depth: in any state of the parser the events that are added stand for the tree of the expression (C64_expression_partial); a file with a constant of this value has exactly that tree and no error (C64_file_partial); two ways to read the same tokens are the same tree (C64_unique_partial). Missing: the other forms of expressions, other types in casts, type arguments, names that are words of the specifications, and expressions in other items than constants in the whole-file theorem. The table of levels is the one of the extension. Three ways in which the claim is false are shown."
 },
 "C65": {
  "status": "partial",
  "note": "Proved for the expressions of C64: the method-call, compound-assignment and resource-index fixes keep the operands of every operator around them (C65_method, C65_compound, C65_compound_operator, C65_resource), removing a cast does so exactly if the next operator is not of a higher level than those in the operand (C65_cast), the index fix does so if an index can follow the borrowed expression (C65_index_partial); a file with the new text is then parsed to the new tree (C65_file_partial), and the factory gives the node for the text (C65_factory_partial). Missing: the other forms of expressions, the checks on types before a fix is offered, the white space of the new text. Four ways in which the claim is false are shown."
 },
 "C66": {
  "status": "partial",
  "note": "Proved: what a use statement imports, and under which names (C66_imports); without an unused import every base of a path of one or two elements may mean the same as before (C66_unused_partial), the same outside of tests for imports that are reported as used in tests only (C66_test_only_partial), what is marked (C66_report, C66_test_report), that all imports that are not mentioned are reported (C66_unmentioned), and that nothing is marked while a statement is unfinished (C66_unfinished). Missing: longer paths, modules named alone, enums that qualify variants, `spec module` blocks; for all of these the claim is shown to be false (C66_enum_fails, C66_variant_fails, C66_friend_fails, C66_spec_module_fails). Imports are as Move asks (no name imported twice); visibility and expected types are not looked at."
 },
 "C67": {
  "status": "partial",
  "note": "Proved: what paths to modules (C67_module), to items (C67_value) and to variants (C67_variant) at numbered addresses mean, whatever is in scope; the same for named addresses when the name of the address means nothing else at the place (C67_named_partial), and in `use` statements and groups when the module exists (C67_use_partial, C67_group_partial); false without these conditions (C67_named_fails, C67_use_fails). Names without a qualifier mean what is in scope, and only that (C67_plain, C67_plain_sound); a name after the name of a module means the items of that module (C67_short), after the name of an enum its variants, unless the name is also that of an address (C67_short_variant_partial, C67_short_variant_fails)."
 },
 "C68": {
  "status": "partial",
  "note": "Proved: changes that do not get in each other's way are all made, as simultaneous edits of the text (C68_all); one item of a list takes one piece of text with it (C68_item); items of a group are taken out all together or not at all (C68_group_partial); \"Organize imports\" makes all changes it records when nothing is to be taken out twice and nothing is used in tests only (C68_organize_partial); marked items go and the others stay (C68_gone, C68_stays). False when neighbours at the start or the end of a group are unused, and for several imports used in tests only (the _fails theorems). Missing: the positive statement for imports that are used in tests only."
 },
 "C69": {
  "status": "partial",
  "note": "Proved: what is offered, when nothing is, and the titles (C69_offered, C69_limit, C69_qualified, C69_titles); where the import goes and when it is for tests (C69_where_partial, up to nodes of the same kind and range); the indentation (C69_indent); the text of the file after a new statement (C69_new_partial) and what the statement imports (C69_item_partial, C69_module); the group that an existing statement becomes (C69_group), with its text if the parser reads the group (C69_group_partial), which is proved for groups of two (C69_pair_partial). Missing: addresses other than names and 0x1, names that are words of the grammar, and that the parser reads groups of more than two. False: no panic, only usable items, comments kept (the _fails theorems)."
 },
 "C71": {
  "status": "proved",
  "note": "C71_index, C71_search and C71_answers prove the statement. C71_upper_fails, C71_limit_fails and C71_container_fails are about what a user may expect beyond it: capital letters in the query, an exact match beyond the limit, and the name of the container."
 },
 "C73": {
  "status": "partial",
  "note": "C73_reported, C73_unused and C73_no_panic hold in full. C73_used_partial and C73_scopes_partial leave out names right behind a character of a name, the specification of a loop and the proof of a lemma (C73_loop_fails, C73_proof_fails). C73_fix_partial and C73_meaning_partial leave out names that are words of the grammar or next to characters that are not ASCII, and need that the new name is not in use (C73_capture_fails); patterns in the short form change their field (C73_shorthand_fails)."
 },
 "C74": {
  "status": "partial",
  "note": "C74_literal, C74_pattern, C74_arguments, C74_vector, C74_bare, C74_unresolved and C74_unknown hold in full. C74_tuple_partial leaves out tuple patterns with too many fields (C74_tuple_fails), C74_types_partial the places that are not checked (C74_enum_fails, C74_unpack_fails). That a field is given twice is not reported at all (C74_repeated_fails)."
 },
 "C75": {
  "status": "partial",
  "note": "C75_real, C75_ranges and C75_order hold in full. C75_covered_partial leaves out errors that contain a mismatch of types that are written alike (C75_silent_fails), C75_innermost_partial and C75_exact_partial errors that start at the same place (C75_nested_fails)."
 },
 "C76": {
  "status": "partial",
  "note": "C76_compound, C76_method and C76_calls hold in full on the expressions of C64. C76_index_partial, C76_cast_partial and C76_resource_partial ask for places where the result needs no parentheses; the others fail (C76_index_fails, C76_cast_fails, C76_resource_fails). C76_reads_partial carries C64_body_partial over to the text after the fix. C76_calls asks that the left side of an assignment calls nothing (C76_twice_fails)."
 },
 "C77": {
  "status": "partial",
  "note": "C77_alike_partial, C77_silent_partial and C77_message_partial ask that no type parameter is called like a type of the language (C77_param_fails), and leave out type variables, schemas and tuples of no types. Structs are compared by their full names without the package (C77_packages_fails). C77_hint_partial is about structs of other packages that are not of the framework (C77_hint_fails)."
 },
 "C78": {
  "status": "partial",
  "note": "C78_sound, C78_none, C78_different and C78_outermost hold for all nodes they speak of. C78_back_partial and C78_scope_partial ask that no node of the same kind and range is around the declaration; that the parser makes none is not proved. Nodes with nothing but nodes in them are not covered by C78_different, and for empty ones it does not hold (C78_empty_fails)."
 },
 "C79": {
  "status": "partial",
  "note": "C79_true, C79_first, C79_exempt, C79_group, C79_members, C79_message and C79_once hold for all references they speak of. C79_silent_partial leaves out what is exempt, which is more than it should be (the _fails theorems), and asks that every part of the path ends in a word or is the address at its beginning, as it is without syntax errors."
 },
 "C80": {
  "status": "partial",
  "note": "C80_true, C80_silent and C80_generic hold in general, apart from the unit type whose abilities C39 finds to be wrong. C80_reported_partial leaves out store, tuple fields, variants and types with arguments; there it is false (the _fails theorems)."
 },
 "C81": {
  "status": "partial",
  "note": "C81_exact, C81_runs and C81_assists hold for all named fields. Cycles of several types and fields without names are not reported (the _fails theorems)."
 },
 "C82": {
  "status": "proved",
  "note": "C82_range and C82_resolve hold for all trees; C82_param and C82_exclusive say exactly which hints there are, C82_type and C82_type_shown the same for types."
 },
 "C83": {
  "status": "partial",
  "note": "C83_complete, C83_sound, C83_scope, C83_once and C83_reach hold without exception; what an import makes of the name is false when the name is in use (C83_import_fails, C83_own_fails)."
 },
 "C84": {
  "status": "partial",
  "note": "C84_lenses, C84_order, C84_once, C84_runs and C84_selects hold without exception; other tests are run too (C84_only_fails) and arguments that are there twice are dropped (C84_args_fails)."
 },
 "C85": {
  "status": "partial",
  "note": "C85_literal, C85_pattern, C85_missing, C85_current, C85_labels and C85_specs hold without exception; a label that is declared twice means nothing (C85_label_fails)."
 },
 "C86": {
  "status": "proved",
  "note": "C86_goto and C86_once assume that a token, the keyword `spec`, is directly in every specification."
 },
 "C87": {
  "status": "partial",
  "note": "C87_proofs, C87_all and C87_found hold without exception; the address is not passed on (C87_address_fails, C87_names_partial)."
 },
 "C88": {
  "status": "partial",
  "note": "C88_reported, C88_keeps and C88_visibility hold without exception; the text can be joined with the next word (C88_joined_fails, C88_lexes_partial)."
 },
 "C89": {
  "status": "partial",
  "note": "C89_only holds without exception; C89_all_partial depends on the scope of the search (C62) and C89_same_partial leaves out names with two meanings (C89_short_fails)."
 },
 "C90": {
  "status": "partial",
  "note": "C90_attached, C90_shown and C90_undocumented hold without exception for the items that take comments; schemas and lemmas do not take any (C90_schema_fails)."
 },
 "C91": {
  "status": "partial",
  "note": "C91_turbofish and C91_acquires hold without exception for the text. That the call stays a call is false (C91_space_fails); without spaces the tokens are the same but for `::` (C91_lexes_partial), and that the parser then makes the same tree is not proved."
 },
 "C92": {
  "status": "partial",
  "note": "C92_literal, C92_pattern, C92_text, C92_gives and C92_binds hold without exception for names; a comment within the field is lost (C92_comment_fails). That every value written as its name is a plain path (NameExpr) is a hypothesis of C92_gives, not proved from the grammar."
 }
}