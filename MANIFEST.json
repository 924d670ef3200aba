{
 "claims": [
  {
   "property": "C01",
   "status": "proved",
   "theorems": [
    "Verif.Lib.C01_membership_exact"
   ],
   "note": ""
  },
  {
   "property": "C02",
   "status": "proved",
   "theorems": [
    "Verif.Lib.C02_union",
    "Verif.Lib.C02_inter",
    "Verif.Lib.C02_diff",
    "Verif.Lib.C02_disjoint"
   ],
   "note": "Union, Inter, Diff and Disjoint agree with the mathematical operations on every set built through the API."
  },
  {
   "property": "C03",
   "status": "proved",
   "theorems": [
    "Verif.Lib.C03_elements"
   ],
   "note": "Elements lists each member exactly once and Cardinal/IsEmpty agree with it."
  },
  {
   "property": "C04",
   "status": "partial",
   "theorems": [
    "Verif.Lib.C04_filter_violated",
    "Verif.Lib.C04_filter_always_empty",
    "Verif.Lib.C04_filter_partial"
   ],
   "note": "The full statement C04_statement is false: Filter discards the result of Add and always returns the empty set. Partial: the result is a subset of the expected set."
  },
  {
   "property": "C05",
   "status": "partial",
   "theorems": [
    "Verif.Lib.C05_balanced_partial",
    "Verif.Lib.C05_balanced_violated_remove",
    "Verif.Lib.C05_balanced_violated_copy",
    "Verif.Lib.C05_statement_false"
   ],
   "note": "Balance holds for sets built with Add only; Remove (wrong case split in rebalance) and Copy (heights reset to 1) break it, witnesses proved."
  },
  {
   "property": "C06",
   "status": "proved",
   "theorems": [
    "Verif.Lib.C06_copy_faithful"
   ],
   "note": "A copy has exactly the same members and elements."
  },
  {
   "property": "C07",
   "status": "proved",
   "theorems": [
    "Verif.Lib.Par.C07_result_independent_of_schedule",
    "Verif.Lib.Par.C07_result_assoc_comm",
    "Verif.Lib.Par.C07_no_deadlock",
    "Verif.Lib.Par.C07_returns",
    "Verif.Lib.Par.C07_typing_verdict",
    "Verif.Lib.Par.C07_second_answer_hides_first",
    "Verif.Lib.Par.C07_order_matters"
   ],
   "note": "All schedules, any number of branches; the operator must be associative and commutative, and C07_order_matters shows that this is needed."
  },
  {
   "property": "C08",
   "status": "proved",
   "theorems": [
    "Verif.Lib.L.C08_contains",
    "Verif.Lib.L.C08_any",
    "Verif.Lib.L.C08_filter",
    "Verif.Lib.L.C08_find",
    "Verif.Lib.L.C08_add_prefix",
    "Verif.Lib.L.C08_add_nodup",
    "Verif.Lib.L.C08_add_members",
    "Verif.Lib.L.C08_removeAt",
    "Verif.Lib.L.C08_removeAt_out",
    "Verif.Lib.L.C08_equals",
    "Verif.Lib.L.C08_indexOf"
   ],
   "note": "Lists as values; sharing of backing arrays is the subject of C52."
  },
  {
   "property": "C09",
   "status": "partial",
   "theorems": [
    "Verif.Glob.C09_violated_adjacent",
    "Verif.Glob.C09_violated_crash",
    "Verif.Glob.C09_statement_false",
    "Verif.Glob.C09_removeAll_partial",
    "Verif.Glob.C09_removeAll_once_partial",
    "Verif.Glob.C09_remove"
   ],
   "note": "The full statement is refuted: two adjacent occurrences leave one behind, and a removal can run off the end. Proved when at most one removed element occurs."
  },
  {
   "property": "C10",
   "status": "partial",
   "theorems": [
    "Verif.Glob.Tasks.C10_fifo",
    "Verif.Glob.Tasks.C10_exactly_once",
    "Verif.Glob.Tasks.C10_progress",
    "Verif.Glob.Tasks.C10_mutex_statement_false",
    "Verif.Glob.Tasks.C10_counter_statement_false",
    "Verif.Glob.Tasks.C10_violated_mutex",
    "Verif.Glob.Tasks.C10_violated_counter",
    "Verif.Glob.Tasks.C10_counter_partial"
   ],
   "note": "Order, exactly-once execution and progress are proved; mutual exclusion and the counter's exactness are refuted, the counter is exact when calls do not overlap."
  },
  {
   "property": "C11",
   "status": "proved",
   "theorems": [
    "Verif.AST.Full.C11_term_equality",
    "Verif.AST.Full.C11_form_equality"
   ],
   "note": "Equality of terms and formulas as in the code, on the full Go records; equality coincides with equality after erasing the fields the code ignores."
  },
  {
   "property": "C12",
   "status": "partial",
   "theorems": [
    "Verif.AST.C12_fresh_distinct",
    "Verif.AST.C12_named_race",
    "Verif.AST.C12_named_statement_false",
    "Verif.AST.C12_named_race_var",
    "Verif.AST.C12_named_partial",
    "Verif.AST.C12_named_sequential"
   ],
   "note": "Fresh symbols are distinct under every schedule. One name = one identifier is false when two goroutines intern a new name concurrently (lock released between lookup and creation); it is proved for sequential calls and for names interned before."
  },
  {
   "property": "C13",
   "status": "proved",
   "theorems": [
    "Verif.AST.C13_apply_replaces_all"
   ],
   "note": ""
  },
  {
   "property": "C14",
   "status": "partial",
   "theorems": [
    "Verif.AST.C14_violated_syntactic",
    "Verif.AST.C14_violated_unsound",
    "Verif.AST.C14_statement_false",
    "Verif.AST.C14_replace_meta_partial",
    "Verif.AST.C14_replace_meta_consistent_partial"
   ],
   "note": "False as stated: inside one argument of an atom only the first occurrence of the metavariable is replaced (witnesses proved). Proved when no argument of an atom contains the metavariable twice; for all formulas the replacement is proved harmless under assignments giving the metavariable the value of the term."
  },
  {
   "property": "C15",
   "status": "proved",
   "theorems": [
    "Verif.AST.C15_simplify_negations"
   ],
   "note": ""
  },
  {
   "property": "C16",
   "status": "partial",
   "theorems": [
    "Verif.Engine.C16_connectives",
    "Verif.Engine.C16_reading_partial",
    "Verif.Engine.C16_fof",
    "Verif.Engine.C16_scope_violated",
    "Verif.Engine.C16_flattenAnd",
    "Verif.Engine.C16_fof_satisfiable"
   ],
   "note": "Parsing and elaboration keep the truth value of every formula: for all connectives (C16_connectives), for all formulas without type arguments in the elaborated fragment (C16_reading_partial), and with totality for all untyped formulas (C16_fof). FlattenAnd keeps the meaning (C16_flattenAnd). Missing: formulas quantifying over types or applying polymorphic symbols; C16_scope_violated shows that a bound name stays in the context after its quantifier.; For untyped formulas the internal formula has exactly the models of the written one (C16_fof_satisfiable)."
  },
  {
   "property": "C17",
   "status": "partial",
   "theorems": [
    "Verif.AST.C17_violated_capture",
    "Verif.AST.C17_violated_weaker",
    "Verif.AST.C17_statement_false",
    "Verif.AST.C17_rename_partial"
   ],
   "note": "False as stated: the fresh name for X is X followed by a number, and is looked up rather than created, so it may be the name of another variable of the input (witness: forall X5 forall X q(X,X5) becomes forall y forall X5 q(y,y)). Proved for formulas without type variables whose variable names do not end with a digit."
  },
  {
   "property": "C18",
   "status": "proved",
   "theorems": [
    "Verif.Search.C18_kind_exact",
    "Verif.Search.C18_dispatch",
    "Verif.Search.C18_smaller",
    "Verif.Search.C18_terminates"
   ],
   "note": "classification, dispatch into rule lists, decrease of formula size, and termination of propositional expansion"
  },
  {
   "property": "C19",
   "status": "proved",
   "theorems": [
    "Verif.Search.C19_alpha"
   ],
   "note": "all alpha formulas, all interpretations"
  },
  {
   "property": "C20",
   "status": "proved",
   "theorems": [
    "Verif.Search.C20_beta"
   ],
   "note": "all beta formulas, all interpretations"
  },
  {
   "property": "C21",
   "status": "partial",
   "theorems": [
    "Verif.Search.C21_gamma_partial",
    "Verif.Sorted.C21_sorted_partial",
    "Verif.Sorted.C21_one_sorted_partial",
    "Verif.Sorted.C21_violated",
    "Verif.Sorted.C21_statement_false"
   ],
   "note": "Proved for formulas without type quantifiers (C21_gamma_partial, with the converse), for many-sorted structures unless the first variable is a type variable from which types of variables of the same list are built (C21_sorted_partial), and for all formulas where types do not tell elements apart (C21_one_sorted_partial). The excluded case is false: the type variable stays in the types of the remaining variables (C21_violated)."
  },
  {
   "property": "C22",
   "status": "partial",
   "theorems": [
    "Verif.Search.C22_delta_partial",
    "Verif.Search.C22_delta_satisfiability_partial",
    "Verif.Sorted.C22_types_partial",
    "Verif.Sorted.C22_violated_dependence",
    "Verif.Sorted.C22_violated_same",
    "Verif.Sorted.C22_statement_false"
   ],
   "note": "Proved for formulas without type quantifiers, and for quantified type variables of closed formulas without metavariables if the constant is new (C22_types_partial). For type variables the claim is false as the code is: the constant does not depend on type metavariables (C22_violated_dependence) and is the same each time (C22_violated_same)."
  },
  {
   "property": "C23",
   "status": "partial",
   "theorems": [
    "Verif.Search.C23_closed_tableau_partial",
    "Verif.Search.C23_closed_tableau_eq_partial",
    "Verif.Search.C23_closed_tableau_conv_partial",
    "Verif.Search.C23_closed_tableau_module_partial",
    "Verif.Search.C23_module_closes_partial",
    "Verif.Whole.C23_problem_partial",
    "Verif.Whole.C23_text_partial",
    "Verif.Sorted.C77_violated_same",
    "Verif.Sorted.C77_violated_dependence"
   ],
   "note": "Any sequence of alpha, beta, gamma, delta (three Skolemisation strategies) and substitution steps, any closing substitution (also closing by X != X). Also closing by the congruence of the equations of a branch and by the answers of the equality module where C75 shows them sound. Missing: formulas with type quantifiers (see C47, C77).; C23_problem_partial and C23_text_partial compose this with reading and elaboration: a closed tableau of the formula searched for an untyped problem shows that the conjecture follows from the axioms, = being equality.; With type quantifiers the claim is false (C77_violated_same, C77_violated_dependence)."
  },
  {
   "property": "C24",
   "status": "proved",
   "theorems": [
    "Verif.Unif.C24_solved_form",
    "Verif.Unif.C24_occurs_check",
    "Verif.Unif.C24_merge_solved"
   ],
   "note": "AddUnification and MergeSubstitutions, no assumption on arities or initial bindings"
  },
  {
   "property": "C25",
   "status": "partial",
   "theorems": [
    "Verif.Unif.C25_violated",
    "Verif.Unif.C25_statement_false",
    "Verif.Unif.C25_violated_arity",
    "Verif.Unif.C25_unification_sound_partial",
    "Verif.Unif.C25_sound_interpretations_partial",
    "Verif.Unif.C25_ground_sound"
   ],
   "note": "The full statement is false of the code (witness f(g(Y),X,Y) / f(X,g(a),b)); sound whenever no recorded value is dropped by Set in computeSubstitutions; sound when one of the terms is ground"
  },
  {
   "property": "C26",
   "status": "partial",
   "theorems": [
    "Verif.Unif.C26_violated_self",
    "Verif.Unif.C26_violated_cycle",
    "Verif.Unif.C26_statement_false",
    "Verif.Unif.C26_ground_complete",
    "Verif.Unif.C26_ground_exact"
   ],
   "note": "False of the code: X with X, and cycles of three metavariables; complete when one of the terms is ground"
  },
  {
   "property": "C27",
   "status": "proved",
   "theorems": [
    "Verif.Unif.C27_most_general"
   ],
   "note": "For terms in which every symbol has one arity"
  },
  {
   "property": "C28",
   "status": "partial",
   "theorems": [
    "Verif.Unif.C28_violated",
    "Verif.Unif.C28_sound_statement_false",
    "Verif.Unif.C28_merge_general",
    "Verif.Unif.C28_merge_sound_partial",
    "Verif.Unif.C28_merge_disjoint_sound",
    "Verif.Unif.C28_ground_sound",
    "Verif.Unif.C28_ground_exact"
   ],
   "note": "Second half proved; first half false of the code (same cause as C25), proved when no recorded value is dropped or no metavariable is bound by both; exact for ground substitutions"
  },
  {
   "property": "C29",
   "status": "proved",
   "theorems": [
    "Verif.Unif.C29_index_exact",
    "Verif.Unif.C29_prefix_loses_entry"
   ],
   "note": "Any batches of predicates, any order, no bound. C29_prefix_loses_entry shows that the insertion procedure itself is wrong for sequences of which one is a prefix of another; parsed formulas never are (Atom.code_prefix). End instructions are compared as equal terms (the code uses reflect.DeepEqual, which also compares caches)."
  },
  {
   "property": "C30",
   "status": "proved",
   "theorems": [
    "Verif.Unif.C30_search_exact",
    "Verif.Unif.C30_answers_general",
    "Verif.Unif.C30_ground_sound",
    "Verif.Unif.C30_ground_exact",
    "Verif.Unif.C30_facts_exact",
    "Verif.Unif.C30_ground_answers"
   ],
   "note": "Any index built by insertions, any query, any order of answers of the parallel sub-searches (Search is nondeterministic); searches that panic or do not end have no derivation.; for formulas and queries without metavariables the search never panics and ends"
  },
  {
   "property": "C31",
   "status": "proved",
   "theorems": [
    "Verif.Search.Reintro.C31_least",
    "Verif.Search.Reintro.C31_balance",
    "Verif.Search.Reintro.C31_differ_by_one",
    "Verif.Search.Reintro.C31_run_total",
    "Verif.Search.Reintro.C31_no_starvation",
    "Verif.Search.Reintro.C31_requested"
   ],
   "note": "Choice of a least reintroduced formula, difference of at most one over all runs, no starvation."
  },
  {
   "property": "C32",
   "status": "proved",
   "theorems": [
    "Verif.Search.Select.C32_choose",
    "Verif.Search.Select.C32_all_tried",
    "Verif.Search.Select.C32_preference_not_kept"
   ],
   "note": "Every choice leaves exactly the other candidates; all candidates are tried once. The extra theorem shows the preference promised by the comment of the function is not kept when only the last candidate does not concern the father."
  },
  {
   "property": "C33",
   "status": "partial",
   "theorems": [
    "Verif.Search.Select.C33_violated",
    "Verif.Search.Select.C33_statement_false",
    "Verif.Search.Select.C33_two_children_partial",
    "Verif.Search.Select.C33_all_closed",
    "Verif.Search.Select.C33_opened"
   ],
   "note": "The full claim is false for three children (common_substs is reset for each answer). Proved for at most two children with substitutions of their own, any number of other children, any order; and that no open child or missing answer is overlooked."
  },
  {
   "property": "C34",
   "status": "proved",
   "theorems": [
    "Verif.Search.Stop.C34_close_children",
    "Verif.Search.Stop.C34_none_left",
    "Verif.Search.Protocol.C34_can_always_finish"
   ],
   "note": "One call of closeChildren with any number of children terminates under every fair schedule and leaves no child unanswered. For the tree of all processes: from every reachable state (without rewriting) a continuation exists in which the main goroutine has its result and every process has ended."
  },
  {
   "property": "C35",
   "status": "partial",
   "theorems": [
    "Verif.Search.Verdict.C35_verdict_partial",
    "Verif.Search.Verdict.C35_valid_iff_closed",
    "Verif.Search.Verdict.C35_violated",
    "Verif.Search.Verdict.C35_statement_false"
   ],
   "note": "VALID exactly when the search reports a closed tableau. The status line is wrong for problems with a negated_conjecture only."
  },
  {
   "property": "C36",
   "status": "partial",
   "theorems": [
    "Verif.Typing.C36_instance_exact",
    "Verif.Typing.C36_wrong_number",
    "Verif.Typing.C36_monomorphic",
    "Verif.Typing.C36_instance_exists",
    "Verif.Typing.C36_signature_partial",
    "Verif.Typing.C36_violated_metavariable",
    "Verif.Typing.C36_violated_constant",
    "Verif.Typing.C36_statement_false",
    "Verif.Typing.C36_substTy_bound",
    "Verif.Typing.C36_substTy_meta"
   ],
   "note": "Instantiation of a declared type is exact for every number of type arguments, and argument and result types are exact for plain signatures. The full statement is false: argument types asked for a metavariable's type, and the result type of a constant, are wrong (proved)."
  },
  {
   "property": "C37",
   "status": "partial",
   "theorems": [
    "Verif.Typing.C37_accepted_partial",
    "Verif.Typing.C37_every_schedule_ends",
    "Verif.Typing.C37_prenex_schedules_partial",
    "Verif.Typing.C37_violated_argument",
    "Verif.Typing.C37_function_as_predicate",
    "Verif.Typing.C37_violated_schedule",
    "Verif.Typing.C37_statement_false"
   ],
   "note": "For every schedule: accepted closed formulas with distinct bound names use every symbol with its arity and every variable argument at its declared type; every schedule ends; for prenex formulas the verdict does not depend on the schedule. The full statement is false: argument terms that are not variables are accepted at the wrong type, and a well-typed formula is rejected by some schedules because contexts share tree nodes (proved). Missing: formulas that reuse bound names."
  },
  {
   "property": "C38",
   "status": "partial",
   "theorems": [
    "Verif.Equality.LPO.C38_total_partial",
    "Verif.Equality.LPO.C38_total_types_partial",
    "Verif.Equality.LPO.C38_irreflexive",
    "Verif.Equality.LPO.C38_antisymmetric",
    "Verif.Equality.LPO.C38_transitive",
    "Verif.Equality.LPO.C38_monotone",
    "Verif.Equality.LPO.C38_subterm",
    "Verif.Equality.LPO.C38_stable",
    "Verif.Equality.LPO.C38_precedence",
    "Verif.Equality.LPO.C38_total_violated",
    "Verif.Equality.LPO.C38_total_statement_false",
    "Verif.Equality.LPO.C38_subterm_open_violated",
    "Verif.Equality.LPO.C38_wellfounded",
    "Verif.Equality.LPO.C38_wellfounded_violated"
   ],
   "note": "All laws are proved for all terms, type arguments included, except totality: the code ignores type arguments, so two constants that differ only in them are declared equal (C38_total_violated). Without type arguments totality is proved (C38_total_partial). The order of identifiers (name, then index) is proved linear (C38_precedence).; C38_wellfounded: no infinite descent over finitely many symbols; over infinitely many symbols there is one."
  },
  {
   "property": "C39",
   "status": "partial",
   "theorems": [
    "Verif.Equality.C39_sound",
    "Verif.Equality.C39_exact_partial",
    "Verif.Equality.C39_flat_partial",
    "Verif.Equality.C39_violated",
    "Verif.Equality.C39_statement_false",
    "Verif.Equality.C39_violated_arity"
   ],
   "note": "Soundness holds in full. Completeness is false (congruence is never propagated); it holds when the recorded terms are closed under congruence, in particular for equations between terms without arguments."
  },
  {
   "property": "C40",
   "status": "proved",
   "theorems": [
    "Verif.Equality.UF.C40_exact",
    "Verif.Equality.UF.C40_compression"
   ],
   "note": "Every sequence of creations, merges and lookups; each lookup ends within as many rounds as there are classes."
  },
  {
   "property": "C41",
   "status": "partial",
   "theorems": [
    "Verif.Equality.C41_fresh_partial",
    "Verif.Equality.C41_violated",
    "Verif.Equality.C41_statement_false",
    "Verif.Equality.C41_violated_panic",
    "Verif.Equality.C41_basic_copy",
    "Verif.Equality.C41_basic_original"
   ],
   "note": "False for the SAT-based problem once it contains terms (classes are shared); true for the copy of a problem without terms, which is how the search uses it, and for the basic structure."
  },
  {
   "property": "C42",
   "status": "partial",
   "theorems": [
    "Verif.Mods.Dmt.C42_rules_follow",
    "Verif.Mods.Dmt.C42_consumed_implied",
    "Verif.Mods.Dmt.C42_instances_partial",
    "Verif.Mods.Dmt.C42_violated_instance",
    "Verif.Mods.Dmt.C42_statement_false"
   ],
   "note": "The rules follow from the axiom and consumed equivalences and atoms from their rules, for all axioms. Instances: proved for rules in which each substituted metavariable occurs once; false in general, since the instantiation replaces only the first occurrence of a metavariable."
  },
  {
   "property": "C43",
   "status": "partial",
   "theorems": [
    "Verif.Engine.C43_meaning_partial",
    "Verif.Engine.C43_two_conjectures_partial",
    "Verif.Engine.C43_outcome_partial",
    "Verif.Engine.C43_violated_two_conjectures",
    "Verif.Engine.C43_violated_selection",
    "Verif.Engine.C43_violated_not_found",
    "Verif.Engine.C43_violated_capture",
    "Verif.Engine.C43_statement_false",
    "Verif.Engine.C43_roles",
    "Verif.Engine.C43_searched_partial"
   ],
   "note": "Proved for all problems of closed FOF formulas over any tree of included files, without rewriting: exact meaning, outcome and rejection of two conjectures in one file. The full claim is false: a conjecture in an included file and one in the main file are both accepted, names selected by an include are ignored, a problem whose axioms all become rewrite rules is reported missing, and renaming can capture a variable so that a false conjecture is proved.; The formula searched is closed, without metavariables, and binds different variables (C43_searched_partial)."
  },
  {
   "property": "C44",
   "status": "partial",
   "theorems": [
    "Verif.Engine.C44_declared_partial",
    "Verif.Engine.C44_violated_included",
    "Verif.Engine.C44_violated_undeclared",
    "Verif.Engine.C44_statement_false"
   ],
   "note": "Proved: a problem whose main file declares a type is type checked. The full claim is false: what included files contain never triggers the check (C44_violated_included, for all problems), nor does a formula with typed variables and no declaration."
  },
  {
   "property": "C45",
   "status": "partial",
   "theorems": [
    "Verif.Search.C45_recorded",
    "Verif.Search.C45_pruned",
    "Verif.Search.C45_reported",
    "Verif.Search.C45_merge_violated",
    "Verif.Search.C45_merge_violated_two",
    "Verif.Search.C45_merge_statement_false",
    "Verif.Search.C45_merge_partial",
    "Verif.Search.C45_ground_sound"
   ],
   "note": "Recording, pruning and reporting proved; merging false of the code (an empty intermediate merge is treated as no constraint; unsound merges of C28), proved when no intermediate merge is empty and substitutions are of a class where merging is sound, e.g. ground"
  },
  {
   "property": "C46",
   "status": "proved",
   "theorems": [
    "Verif.Search.Mem.C46_contents",
    "Verif.Search.Mem.C46_isolated",
    "Verif.Search.Mem.C46_others"
   ],
   "note": "State.Copy on data and in memory: contents of the child's state, and isolation of branches under every interleaving of loads, stores, allocations, spawns and received copies. Code-tree indexes are values: the search replaces them and never changes them in place."
  },
  {
   "property": "C47",
   "status": "partial",
   "theorems": [
    "Verif.Search.C47_skolem_symbols_partial",
    "Verif.Search.C47_violated_types",
    "Verif.Search.C47_types_statement_false"
   ],
   "note": "Proved for term variables in all interleavings; proved false of the code for type variables, which all get the same constant."
  },
  {
   "property": "C48",
   "status": "partial",
   "theorems": [
    "Verif.Search.Verdict.C48_deepening_partial",
    "Verif.Search.Verdict.C48_never_returns",
    "Verif.Search.Verdict.C48_violated",
    "Verif.Search.Verdict.C48_statement_false"
   ],
   "note": "Holds while the doubled limit does not overflow int64; the full claim fails at round 64. A search that always fails never returns."
  },
  {
   "property": "C49",
   "status": "proved",
   "theorems": [
    "Verif.Search.Incr.C49_agrees_with_main",
    "Verif.Search.Incr.C49_rule_equivalent",
    "Verif.Search.Incr.C49_decomposition",
    "Verif.Search.Incr.C49_quantifiers"
   ],
   "note": "agreement with the main rules, equivalence of every rule and of the whole decomposition; type variables of quantifiers not modelled"
  },
  {
   "property": "C50",
   "status": "proved",
   "theorems": [
    "Verif.Search.Incr.C50_pair",
    "Verif.Search.Incr.C50_when",
    "Verif.Search.Incr.C50_children",
    "Verif.Search.Incr.C50_missing"
   ],
   "note": "each combination binds exactly what one substitution of each child binds; replaceThisByThat (after the search) is not modelled"
  },
  {
   "property": "C51",
   "status": "proved",
   "theorems": [
    "Verif.AST.C51_metas_exact"
   ],
   "note": "through the tree sets of C01"
  },
  {
   "property": "C52",
   "status": "partial",
   "theorems": [
    "Verif.Lib.Slice.C52_append_value",
    "Verif.Lib.Slice.C52_append_frame",
    "Verif.Lib.Slice.C52_append_argument",
    "Verif.Lib.Slice.C52_append_full_partial",
    "Verif.Lib.Slice.C52_copy",
    "Verif.Lib.Slice.C52_add_value",
    "Verif.Lib.Slice.C52_violated",
    "Verif.Lib.Slice.C52_violated_sub",
    "Verif.Lib.Slice.C52_statement_false",
    "Verif.Lib.Slice.C52_single_use_partial"
   ],
   "note": "Refuted in general: two extensions of one list overwrite each other. Proved for fresh copies and for programs that extend each list value at most once."
  },
  {
   "property": "C53",
   "status": "proved",
   "theorems": [
    "Verif.Glob.Map.C53_map",
    "Verif.Glob.Map.C53_length",
    "Verif.Glob.Map.C53_set_old"
   ],
   "note": "Sequential use; the read-write lock makes each call atomic."
  },
  {
   "property": "C54",
   "status": "partial",
   "theorems": [
    "Verif.Glob.NodeId.C54_violated",
    "Verif.Glob.NodeId.C54_statement_false",
    "Verif.Glob.NodeId.C54_sequential_partial",
    "Verif.Glob.NodeId.C54_given_le_counter"
   ],
   "note": "Refuted: the counter is read after the lock is released. Proved for calls that do not overlap."
  },
  {
   "property": "C55",
   "status": "partial",
   "theorems": [
    "Verif.Search.Clean.C55_violated",
    "Verif.Search.Clean.C55_statement_false",
    "Verif.Search.Clean.C55_no_shared_partial",
    "Verif.Search.Clean.C55_no_more_partial",
    "Verif.Search.Clean.C55_total_partial"
   ],
   "note": "False: two parent metavariables bound to the same child metavariable become unconstrained. Proved when no child metavariable is shared; the result never constrains more than the input."
  },
  {
   "property": "C56",
   "status": "partial",
   "theorems": [
    "Verif.Search.Clean.C56_violated",
    "Verif.Search.Clean.C56_statement_false",
    "Verif.Search.Clean.C56_distinct_partial",
    "Verif.Search.Clean.C56_sets_partial"
   ],
   "note": "False when two candidates are cleaned to the same substitution; proved when the cleaned ones are distinct; the sets are right in all cases."
  },
  {
   "property": "C57",
   "status": "partial",
   "theorems": [
    "Verif.Search.Protocol.C57_main_never_stuck",
    "Verif.Search.Protocol.C57_no_process_left",
    "Verif.Search.Protocol.C57_violated_rewriting",
    "Verif.Search.Protocol.C57_leak_for_ever"
   ],
   "note": "The full claim holds without rewriting (deduction modulo theory switched off). With rewriting the search itself is never stuck, but a process can be forgotten: manageBacktrackForDMT overwrites the list of children after telling them to wait."
  },
  {
   "property": "C58",
   "status": "partial",
   "theorems": [
    "Verif.Search.C58_violated",
    "Verif.Search.C58_statement_false",
    "Verif.Search.C58_regroup_partial"
   ],
   "note": "False of the code: the result of RemoveAt is discarded; what the call does (regrouping) is proved to lose nothing"
  },
  {
   "property": "C59",
   "status": "partial",
   "theorems": [
    "Verif.Equality.LPO.C59_decided_partial",
    "Verif.Equality.LPO.C59_equation_partial",
    "Verif.Equality.LPO.C59_equation_violated",
    "Verif.Equality.LPO.C59_lost_violated",
    "Verif.Equality.LPO.C59_gained_violated",
    "Verif.Equality.LPO.C59_statement_false"
   ],
   "note": "Violated by the code: the remaining arguments are forgotten when a constraint is simplified (solutions are gained and lost). Proved: decided constraints are decided for all instances; for equations no solution is lost."
  },
  {
   "property": "C60",
   "status": "partial",
   "theorems": [
    "Verif.Lib.Alias.insert_spec",
    "Verif.Lib.Alias.find_spec",
    "Verif.Lib.Alias.C60_violated_gain",
    "Verif.Lib.Alias.C60_violated_loss",
    "Verif.Lib.Alias.C60_statement_false",
    "Verif.Lib.Alias.C60_replaced_partial"
   ],
   "note": "Insertion in memory computes the tree insertion and changes only nodes of the set. The full statement is false: an older value can gain and lose members (proved). Proved for programs that replace the variable they add to."
  },
  {
   "property": "C61",
   "status": "partial",
   "theorems": [
    "Verif.Mods.Dmt.C61_violated_lost",
    "Verif.Mods.Dmt.C61_violated_crash",
    "Verif.Mods.Dmt.C61_violated_crash_equivalence",
    "Verif.Mods.Dmt.C61_statement_false",
    "Verif.Mods.Dmt.C61_consumed_partial"
   ],
   "note": "False as stated: in polarised mode an implication with an equality literal is consumed with no rule, and some shapes crash. Partial: axioms outside these shapes."
  },
  {
   "property": "C62",
   "status": "partial",
   "theorems": [
    "Verif.Search.Incr.C62_never",
    "Verif.Search.Incr.C62_incomplete",
    "Verif.Search.Incr.C62_statement_false"
   ],
   "note": "Refuted: no rule implements the interface GammaRule, so nothing is ever registered for reintroduction, in any run on any formula; a formula that needs two instances is left open."
  },
  {
   "property": "C63",
   "status": "partial",
   "theorems": [
    "Verif.Search.Incr.C63_violated_cycle",
    "Verif.Search.Incr.C63_statement_false",
    "Verif.Search.Incr.C63_missed",
    "Verif.Search.Incr.C63_solved_partial"
   ],
   "note": "violated: bindings that form a cycle are combined; holds for combinations in solved form"
  },
  {
   "property": "C64",
   "status": "partial",
   "theorems": [
    "Verif.Search.Incr.C64_violated_cycle",
    "Verif.Search.Incr.C64_violated_joker",
    "Verif.Search.Incr.C64_statement_false",
    "Verif.Search.Incr.C64_ground_partial",
    "Verif.Search.Incr.C64_ground_exact",
    "Verif.Search.Incr.C64_ground_ends",
    "Verif.Search.Incr.C64_ground_progress"
   ],
   "note": "Refuted by two satisfiable formulas reported closed.; For ground formulas without empty connectives every schedule ends within a bound and the verdict is exact, by an invariant over all interleavings of the tasks."
  },
  {
   "property": "C65",
   "status": "partial",
   "theorems": [
    "Verif.Search.Main.C65_violated_cleaning",
    "Verif.Search.Main.C65_violated_common",
    "Verif.Search.Main.C65_violated_lost",
    "Verif.Search.Main.C65_statement_false",
    "Verif.Search.Main.C65_ground_partial",
    "Verif.Search.Main.C65_ground_exact",
    "Verif.Search.Main.C65_ground_ends",
    "Verif.Search.Main.C65_ground_progress",
    "Verif.Search.Main.C65_ground_decides",
    "Verif.Search.Main.C65_delta_ends",
    "Verif.Search.Main.C65_delta_exact",
    "Verif.Search.Main.C65_delta_decides",
    "Verif.Search.Main.C65_violated_alone",
    "Verif.Search.Main.Sound.C65_late_partial",
    "Verif.Search.Main.Sound.C65_late_index_partial"
   ],
   "note": "Refuted: the full statement is C65_statement; three satisfiable formulas are reported closed by possible runs of the search.; for ground formulas without equality and empty connectives every schedule ends within a bound, none gets stuck, and the verdict is exact; the same for formulas without equality whose quantifiers all assert the existence of something, every Skolem symbol being new; a fourth formula, without disjunctions, is reported closed because of the index; what is reported closed has no model for formulas whose disjunctions are outside of universal quantifiers, literals of one sign per predicate being under these, or any literals if the index is right"
  },
  {
   "property": "C66",
   "status": "partial",
   "theorems": [
    "Verif.Gs3.C66_delta",
    "Verif.Gs3.C66_gamma",
    "Verif.Gs3.C66_witness_partial",
    "Verif.Gs3.C66_violated",
    "Verif.Gs3.C66_statement_false"
   ],
   "note": "Skolem terms and fresh metavariables are recovered for all formulas; values of metavariables when no argument of an atom contains the variable twice; with two occurrences the translation stops with an anomaly (witness)."
  },
  {
   "property": "C67",
   "status": "partial",
   "theorems": [
    "Verif.Gs3.C67_ordered_partial",
    "Verif.Gs3.C67_valid_sound",
    "Verif.Gs3.C67_ordered_unsat",
    "Verif.Gs3.C67_violated_vacuous",
    "Verif.Gs3.C67_violated_weakening",
    "Verif.Gs3.C67_statement_false"
   ],
   "note": "Tableaux in which every Skolem symbol is new in its branch when it is introduced are translated, without failure, into a refutation; refutations are sound. The full claim is false: a delta step whose variable does not occur panics, and reordering weakens a formula twice (both witnesses are closed tableaux of the search)."
  },
  {
   "property": "C68",
   "status": "partial",
   "theorems": [
    "Verif.Mods.Dmt.C68_ground_partial",
    "Verif.Mods.Dmt.C68_ground_sound_partial",
    "Verif.Mods.Dmt.C68_axiom_ground_sound_partial",
    "Verif.Mods.Dmt.Case.C68_violated_unsound",
    "Verif.Mods.Dmt.Case.C68_violated_foreign",
    "Verif.Mods.Dmt.Case.C68_violated_crash",
    "Verif.Mods.Dmt.Case.C68_violated_open",
    "Verif.Mods.Dmt.C68_statement_false"
   ],
   "note": "False of the code for literals with metavariables: a literal can be rewritten with a rule it is no instance of (a binding lost in unification), metavariables of rules enter the branch, and some literals end the program. Proved for literals without metavariables, with rules in whose result no metavariable occurs twice in one argument and each symbol used with one arity: no failure, exactly the results of the matching rules, sound with respect to the axioms, truth and falsity first."
  },
  {
   "property": "C69",
   "status": "partial",
   "theorems": [
    "Verif.Equality.Bse.C69_violated",
    "Verif.Equality.Bse.C69_violated_solve",
    "Verif.Equality.Bse.C69_violated_binding",
    "Verif.Equality.Bse.C69_statement_false",
    "Verif.Equality.Bse.C69_meta_partial",
    "Verif.Equality.Bse.C69_minimal_partial",
    "Verif.Equality.Bse.C69_solve_partial"
   ],
   "note": "False as stated: C69_violated, C69_violated_solve and C69_violated_binding give answers that are not justified. Proved for ground equalities when the second side is a metavariable and the first is ground, and when the second side is ground and minimal. Missing: equalities with metavariables, and the cases in which the second side is rewritten, where the code is wrong.; C69_solve_partial lifts the minimal case to all goals of a branch and their merged substitutions"
  },
  {
   "property": "C70",
   "status": "partial",
   "theorems": [
    "Verif.Equality.Bse.C70_violated",
    "Verif.Equality.Bse.C70_statement_false",
    "Verif.Equality.Bse.C70_partial",
    "Verif.Equality.Bse.C70_exact_partial"
   ],
   "note": "False as stated: C70_violated. Proved when the equalities are convergent and the second side is in normal form. Missing: equalities that have to be completed by left rules, where the code loses equalities."
  },
  {
   "property": "C71",
   "status": "proved",
   "theorems": [
    "Verif.Equality.Bse.C71_ends",
    "Verif.Equality.Bse.C71_answers",
    "Verif.Equality.Bse.C71_schedule",
    "Verif.Equality.Bse.C71_solve"
   ],
   "note": "For goroutines that receive no kill order, with the bound on the depth of unification at least 3."
  },
  {
   "property": "C72",
   "status": "proved",
   "theorems": [
    "Verif.Unif.C72_eliminate_total",
    "Verif.Unif.C72_stable",
    "Verif.Unif.C72_unifiable"
   ],
   "note": "For bindings of distinct metavariables, as Set builds them; eliminateList is modelled as replacement of all occurrences, justified by Verif.Unif.elimL_exact"
  },
  {
   "property": "C73",
   "status": "partial",
   "theorems": [
    "Verif.Equality.Bse.C73_partial",
    "Verif.Equality.Bse.C73_violated",
    "Verif.Equality.Bse.C73_statement_false"
   ],
   "note": "Exact for all monomorphic branches when the type metavariable of the query does not get the index of a metavariable of the branch; otherwise false: f(X)=a is read as f($i)=a. Polymorphic literals not covered."
  },
  {
   "property": "C74",
   "status": "partial",
   "theorems": [
    "Verif.Equality.Bse.C74_isolated",
    "Verif.Equality.Bse.C74_violated",
    "Verif.Equality.Bse.C74_statement_false"
   ],
   "note": "Proved without the option -increq; with it the claim is false: sibling branches share one structure and a branch with a model is closed."
  },
  {
   "property": "C75",
   "status": "partial",
   "theorems": [
    "Verif.Equality.Bse.C75_sound_partial",
    "Verif.Equality.Bse.C75_exact_partial",
    "Verif.Equality.Bse.C75_violated_sound",
    "Verif.Equality.Bse.C75_violated_complete",
    "Verif.Equality.Bse.C75_statement_false"
   ],
   "note": "False in general in both directions (witnesses). Proved sound for ground equalities and minimal second sides, exact for ground convergent branches with second sides in normal form. Missing: termination and soundness conditions with metavariables in the equalities."
  },
  {
   "property": "C76",
   "status": "partial",
   "theorems": [
    "Verif.Sorted.C76_closed_tableau_partial",
    "Verif.Sorted.C76_equality_partial",
    "Verif.Sorted.C76_branch_partial",
    "Verif.Sorted.C76_reason_partial",
    "Verif.Sorted.C76_violated",
    "Verif.Sorted.C76_statement_false"
   ],
   "note": "Full claim C76_statement is false: unification never looks at the types of metavariables and the equality module drops the type of an equation, so an equation X = Y of one type rewrites terms of another (C76_violated). Proved: closed tableaux of well-sorted formulas without type quantifiers are many-sorted refutations (closure by complementary literals or by a negated equation); one-sorted refutations with equality are many-sorted ones if no positive equation has a variable side, for formulas and for branches given to the equality module. Missing: type quantifiers, functions with type arguments in the branch theorem."
  },
  {
   "property": "C77",
   "status": "partial",
   "theorems": [
    "Verif.Sorted.C77_one_sorted_partial",
    "Verif.Sorted.C77_many_sorted_partial",
    "Verif.Sorted.C77_delta_partial",
    "Verif.Sorted.C77_violated_same",
    "Verif.Sorted.C77_violated_dependence",
    "Verif.Sorted.C77_statement_false"
   ],
   "note": "false as stated: one type Skolem constant for all type variables, independent of type metavariables; proved for steps without delta formulas (one sort, and many sorts with polymorphic declarations), and for a single delta step with a new constant"
  },
  {
   "property": "C78",
   "status": "partial",
   "theorems": [
    "Verif.Rocq.C78_accepted_holds",
    "Verif.Rocq.C78_output_sound",
    "Verif.Rocq.C78_accepted_partial",
    "Verif.Rocq.C78_panics",
    "Verif.Rocq.C78_violated_three",
    "Verif.Rocq.C78_violated_named",
    "Verif.Rocq.C78_violated_conjecture",
    "Verif.Rocq.C78_statement_false"
   ],
   "note": "The full claim is false: three witnesses. Proved: an accepted script proves that the conjecture follows from the axioms; the script of a refutation that is 'ready' (binary connectives, terms introduced before use, no user symbol named like a Skolem symbol) is accepted. Printing and rewriting steps are not modelled; the declarations are the subject of C90."
  },
  {
   "property": "C79",
   "status": "partial",
   "theorems": [
    "Verif.Equality.Sat.C79_partial",
    "Verif.Equality.Sat.C79_justified_partial",
    "Verif.Equality.Sat.C79_unifier_partial",
    "Verif.Equality.Sat.C79_violated",
    "Verif.Equality.Sat.C79_violated_no_goal",
    "Verif.Equality.Sat.C79_statement_false"
   ],
   "note": "The full claim is false: two witnesses. Proved: the reported substitution solves a goal, and an instance of it is a rigid E-unifier, if there is a goal and terms with the same function symbol are not in different classes next to a third class, or if the assignment uses congruence only between the two classes in question. The SAT solver is trusted."
  },
  {
   "property": "C80",
   "status": "proved",
   "theorems": [
    "Verif.Equality.Sat.C80_realised",
    "Verif.Equality.Sat.C80_answers",
    "Verif.Equality.Sat.C80_loop"
   ],
   "note": "For all satisfying assignments and all choices; C80_loop shows that the substitution need not be triangular. The SAT solver is trusted."
  },
  {
   "property": "C81",
   "status": "partial",
   "theorems": [
    "Verif.Equality.Sat.C81_partial",
    "Verif.Equality.Sat.C81_violated",
    "Verif.Equality.Sat.C81_statement_false"
   ],
   "note": "False without metavariables (no SAT problem is built). Proved as soon as a metavariable occurs in the problem. The SAT solver is trusted."
  },
  {
   "property": "C82",
   "status": "partial",
   "theorems": [
    "Verif.Tptp.C82_accepted_holds",
    "Verif.Tptp.C82_partial",
    "Verif.Tptp.C82_weaken_rejected",
    "Verif.Tptp.C82_violated_weaken",
    "Verif.Tptp.C82_violated_delta_weaken",
    "Verif.Tptp.C82_violated_iff",
    "Verif.Tptp.C82_violated_bot",
    "Verif.Tptp.C82_violated_top",
    "Verif.Tptp.C82_violated_twice",
    "Verif.Tptp.C82_violated_vacuous",
    "Verif.Tptp.C82_violated_clash",
    "Verif.Tptp.C82_violated_conjecture",
    "Verif.Tptp.C82_statement_false",
    "Verif.Tptp.C82_violated_branch"
   ],
   "note": "Accepted derivations are sound. Derivations are accepted for refutations without weakening, closed by complementary formulas, whose equivalences have no negated side and whose gamma terms contain a Skolem term at most once. The full claim is false; a witness is given for each excluded case."
  },
  {
   "property": "C83",
   "status": "partial",
   "theorems": [
    "Verif.Lambdapi.C83_accepted_holds",
    "Verif.Lambdapi.C83_partial",
    "Verif.Lambdapi.C83_violated_axioms",
    "Verif.Lambdapi.C83_violated_theorem",
    "Verif.Lambdapi.C83_violated_quantifier",
    "Verif.Lambdapi.C83_violated_weaken",
    "Verif.Lambdapi.C83_violated_nary",
    "Verif.Lambdapi.C83_violated_compound",
    "Verif.Lambdapi.C83_statement_false"
   ],
   "note": "Accepted terms are sound; terms are accepted for problems without axioms and propositional proofs with binary connectives. The full claim is false: problems with axioms are never accepted, and the other excluded cases have witnesses."
  },
  {
   "property": "C84",
   "status": "partial",
   "theorems": [
    "Verif.Parser.C84_partial",
    "Verif.Parser.C84_statement_false",
    "Verif.Parser.C84_violated_quantifier",
    "Verif.Parser.C84_violated_newline",
    "Verif.Parser.C84_violated_unknown",
    "Verif.Parser.C84_violated_tab",
    "Verif.Parser.C84_violated_accent",
    "Verif.Parser.C84_violated_empty",
    "Verif.Parser.C84_violated_escape",
    "Verif.Parser.C84_violated_plus"
   ],
   "note": "The tokens are read as written for texts written with care (space after a quantifier, parenthesis after a keyword, no + before numbers, no backslash in quotes, no dollar word starting with $true or $false, last token a full stop, end of line at the end); the statement is false without each of these."
  },
  {
   "property": "C85",
   "status": "proved",
   "theorems": [
    "Verif.Parser.C85_unique",
    "Verif.Parser.C85_written",
    "Verif.Parser.C85_scope",
    "Verif.Parser.C85_mixed"
   ],
   "note": "FOF rules of the grammar as derivations; the automaton made by goyacc is trusted to accept their language."
  },
  {
   "property": "C86",
   "status": "partial",
   "theorems": [
    "Verif.Parser.C86_partial",
    "Verif.Parser.C86_violated_same",
    "Verif.Parser.C86_violated_distinct",
    "Verif.Parser.C86_statement_false"
   ],
   "note": "False of the code: a distinct object is the constant with the same text, and distinct objects may be equal. Partial: different texts give different constants."
  },
  {
   "property": "C87",
   "status": "partial",
   "theorems": [
    "Verif.Parser.C87_partial",
    "Verif.Parser.C87_violated_scope",
    "Verif.Parser.C87_violated_name",
    "Verif.Parser.C87_violated_file",
    "Verif.Parser.C87_statement_false"
   ],
   "note": "True for names that are words, quantifiers over formulas printed without a binary connective on top, non-empty connectives and file names of letters, digits, _ . = +. False otherwise: scope of quantifiers, capitals in names, dashes in file names."
  },
  {
   "property": "C88",
   "status": "partial",
   "theorems": [
    "Verif.Whole.C88_partial",
    "Verif.Whole.C88_answers",
    "Verif.Whole.C88_rounds",
    "Verif.Whole.C88_limit_never",
    "Verif.Whole.C88_violated_capture",
    "Verif.Whole.C88_statement_false",
    "Verif.Whole.C88_up_parse",
    "Verif.Whole.C88_delta_partial",
    "Verif.Whole.C88_delta_answers",
    "Verif.Whole.C88_delta_rounds",
    "Verif.Whole.C88_delta_never",
    "Verif.Whole.C88_violated_index"
   ],
   "note": "Exact for texts of problems without quantifiers and equality in any number of files, for all options and schedules; such problems get a verdict without -l. False in general: a text of two lines is proved though it does not follow. Equality reasoning and proof output are not part of the model of the whole program.; The same for problems in which every quantifier asserts the existence of something (C88_delta_*), with -one_step or if the conjecture follows; otherwise such a problem never gets a verdict (C88_delta_never).; a text of one line, with one branch, is printed as a theorem wrongly because of the index"
  },
  {
   "property": "C89",
   "status": "partial",
   "theorems": [
    "Verif.Whole.C89_default",
    "Verif.Whole.C89_partial",
    "Verif.Whole.C89_ignored",
    "Verif.Whole.C89_violated_include",
    "Verif.Whole.C89_statement_false"
   ],
   "note": "True without -l; with -l true if no included file has a formula; otherwise the given bound is ignored."
  },
  {
   "property": "C90",
   "status": "partial",
   "theorems": [
    "Verif.Rocq.Context.C90_iff_partial",
    "Verif.Rocq.Context.C90_lines",
    "Verif.Rocq.Context.C90_violated_types",
    "Verif.Rocq.Context.C90_violated_arity",
    "Verif.Rocq.Context.C90_violated_keyword",
    "Verif.Rocq.Context.C90_statement_false",
    "Verif.Rocq.Context.C90_type_kept",
    "Verif.Rocq.Context.C90_type_prefix"
   ],
   "note": "C90_statement is the full claim for untyped problems and is false (C90_statement_false: a predicate with two numbers of arguments is declared twice; keywords are not renamed). C90_iff_partial: for untyped problems the declarations are right exactly when each name has one use and is no word of Rocq. For typed problems C90_lines says which lines there are and C90_violated_types that the types are not declared. The line for metavariables and the exact lexical rules of Rocq beyond words and keywords are not modelled.; Names of types without $ are printed unchanged; names beginning with $i are garbled ($int becomes goeland_Unt)."
  },
  {
   "property": "C91",
   "status": "partial",
   "theorems": [
    "Verif.Assisted.C91_never",
    "Verif.Assisted.C91_statement_false",
    "Verif.Assisted.C91_choice_partial",
    "Verif.Assisted.C91_violated_beta",
    "Verif.Assisted.C91_choice_false",
    "Verif.Assisted.C91_violated_reintro",
    "Verif.Assisted.C91_subst_partial",
    "Verif.Assisted.C91_violated_subst"
   ],
   "note": "The full claim is false on every problem: C91_never shows that nothing is ever asked and that every run leads to a crash or a deadlock. What is typed is taken to be valid; rewriting and equality are off. Proved for the functions that apply the rules: alpha, delta and gamma use the formula chosen; beta, reintroduction and substitutions do not in all cases."
  },
  {
   "property": "C92",
   "status": "partial",
   "theorems": [
    "Verif.Lambdapi.Context.C92_names_partial",
    "Verif.Lambdapi.Context.C92_never",
    "Verif.Lambdapi.Context.C92_meta_partial",
    "Verif.Lambdapi.Context.C92_violated_metas",
    "Verif.Lambdapi.Context.C92_statement_false"
   ],
   "note": "The statement is false of the code on every problem with a symbol: symbols are declared without types, and only the first of several metavariables is declared. Proved: each symbol used has exactly one line, and a single metavariable is declared."
  },
  {
   "property": "C93",
   "status": "partial",
   "theorems": [
    "Verif.Search.Main.C93_ground_partial",
    "Verif.Search.Main.C93_ground_gs3",
    "Verif.Search.Main.C93_delta_partial",
    "Verif.Search.Main.C93_violated_gone",
    "Verif.Search.Main.C93_violated_stale",
    "Verif.Search.Main.C93_violated_gs3",
    "Verif.Search.Main.C93_statement_false",
    "Verif.Search.Main.C93_delta_gs3"
   ],
   "note": "False as stated (C93_statement): two formulas without model whose proof lacks a branch or has a branch proved with another substitution. Proved for all schedules for ground formulas and those the delta rule is enough for, without equality."
  },
  {
   "property": "C94",
   "status": "partial",
   "theorems": [
    "Verif.Search.Output.C94_main",
    "Verif.Search.Output.C94_main_partial",
    "Verif.Search.Output.C94_basic_partial",
    "Verif.Search.Output.C94_violated_percent",
    "Verif.Search.Output.C94_violated_incr_verdict",
    "Verif.Search.Output.C94_violated_incr_open",
    "Verif.Search.Output.C94_violated_incr_fatal",
    "Verif.Search.Output.C94_statement_false",
    "Verif.Search.Output.C94_directive",
    "Verif.Search.Output.C94_rounds",
    "Verif.Search.Output.C94_basic_all"
   ],
   "note": "Proved for the main search when no text contains a percent sign. The full claim is false: a percent sign is read as a format, and the incremental search prints no verdict and prints proof lines for open trees."
  },
  {
   "property": "C95",
   "status": "partial",
   "theorems": [
    "Verif.Search.Incr.C95_ground_partial",
    "Verif.Search.Incr.C95_ground_gs3",
    "Verif.Search.Incr.C95_open",
    "Verif.Search.Incr.C95_violated",
    "Verif.Search.Incr.C95_statement_false"
   ],
   "note": "Proved for ground formulas whose conjunctions and disjunctions have at least two members, every schedule. The full claim is false for quantified formulas: the substitution and the closing literal may not belong together."
  },
  {
   "property": "C96",
   "status": "partial",
   "theorems": [
    "Verif.Whole.Include.C96_step_iff",
    "Verif.Whole.Include.C96_usual_partial",
    "Verif.Whole.Include.C96_first",
    "Verif.Whole.Include.C96_files",
    "Verif.Whole.Include.C96_violated_cwd",
    "Verif.Whole.Include.C96_violated_library",
    "Verif.Whole.Include.C96_violated_absolute",
    "Verif.Whole.Include.C96_statement_false"
   ],
   "note": "Proved for relative includes that are not hidden by a file seen from the directory of the call. The full claim is false: files hidden by that directory, library files with includes beside them, and absolute names."
  },
  {
   "property": "C97",
   "status": "partial",
   "theorems": [
    "Verif.Search.ProofMetas.C97_metas_partial",
    "Verif.Search.ProofMetas.C97_closed",
    "Verif.Search.ProofMetas.C97_violated_incr",
    "Verif.Search.ProofMetas.C97_statement_false"
   ],
   "note": "Proved for every proof of the main search. The full claim is false: the incremental search hands on none."
  },
  {
   "property": "C98",
   "status": "partial",
   "theorems": [
    "Verif.Search.Exchanges.C98_file_partial",
    "Verif.Search.Exchanges.C98_first_partial",
    "Verif.Search.Exchanges.C98_violated_crash",
    "Verif.Search.Exchanges.C98_violated_names",
    "Verif.Search.Exchanges.C98_violated_version",
    "Verif.Search.Exchanges.C98_statement_false"
   ],
   "note": "For every number of rounds and all texts the file with its closing bracket is the JSON array of the records, if its directory exists (C98_file_partial); as claimed for the first round with a debugger on (C98_first_partial). False otherwise: the program crashes if the directory is missing, all names are 0 without a debugger, and versions go on counting in later rounds. Not modelled: processes of a round that outlive it, the printing of formulas."
  },
  {
   "property": "C99",
   "status": "partial",
   "theorems": [
    "Verif.Assisted.C99_hint_partial",
    "Verif.Assisted.C99_closure",
    "Verif.Assisted.C99_closure_total",
    "Verif.Assisted.C99_violated_crash",
    "Verif.Assisted.C99_violated_gamma",
    "Verif.Assisted.C99_statement_false"
   ],
   "note": "Proved for the states where gamma rules may still be applied if there are gamma formulas, and where there is something to reintroduce if nothing else is left and steps are left. For the other states the claim is false (C99_violated_gamma, C99_violated_crash). The closure part is proved for all states. Rewriting and equality are off."
  },
  {
   "property": "C100",
   "status": "partial",
   "theorems": [
    "Verif.Options.C100_effects_partial",
    "Verif.Options.C100_order",
    "Verif.Options.C100_message",
    "Verif.Options.C100_violated_incr",
    "Verif.Options.C100_violated_inner",
    "Verif.Options.C100_violated_outputs",
    "Verif.Options.C100_statement_false"
   ],
   "note": "Proved for every command line but those with -ari or -type_proof, with two Skolemisations, two TPTP formats, a Rocq proof with one for another system, or the incremental search with equality or an option it does not read; for these it is false. Order and spelling never matter. The package flag is modelled as documented; what -debug prints is not modelled."
  },
  {
   "property": "C101",
   "status": "partial",
   "theorems": [
    "Verif.Whole.C101_partial",
    "Verif.Whole.C101_ends",
    "Verif.Whole.C101_answers",
    "Verif.Whole.C101_proof",
    "Verif.Whole.presearch_wide",
    "Verif.Whole.C101_violated_dmt",
    "Verif.Whole.C101_violated_equality",
    "Verif.Whole.C101_violated_instances",
    "Verif.Whole.C101_violated_cycle",
    "Verif.Whole.C101_statement_false"
   ],
   "note": "Proved for problems without quantifiers and equality, spread over files included as a whole, without -dmt, for all schedules; the program ends and the proof is a closed tableau. False in general: equality, formulas needed twice and axioms taken out by -dmt give no proof for problems that follow; branches closed one by one give a proof of a problem that does not follow."
  },
  {
   "property": "C102",
   "status": "partial",
   "theorems": [
    "Verif.Whole.C102_main_partial",
    "Verif.Whole.C102_incr_partial",
    "Verif.Whole.C102_main_exists",
    "Verif.Whole.C102_incr_exists",
    "Verif.Whole.C102_printed",
    "Verif.Whole.C102_shown",
    "Verif.Whole.C102_means",
    "Verif.Whole.C102_violated_capture",
    "Verif.Whole.C102_violated_cycle",
    "Verif.Whole.C102_statement_false",
    "Verif.Whole.C102_statement_false_incr",
    "Verif.Whole.C102_delta_partial",
    "Verif.Whole.C102_delta_exists",
    "Verif.Whole.C102_violated_idle"
   ],
   "note": "Proved for problems without quantifiers and equality, for both searches and all schedules; that every positive verdict comes with a proof holds for all texts. Missing: quantifiers and equality, for which the claim fails on the given texts.; With existential quantifiers only: the refutation is made if each quantified variable occurs."
  },
  {
   "property": "C103",
   "status": "partial",
   "theorems": [
    "Verif.Unif.Mixed.C103_roundtrip",
    "Verif.Unif.Mixed.C103_again",
    "Verif.Unif.Mixed.C103_mono",
    "Verif.Unif.Mixed.C103_merge_partial",
    "Verif.Unif.Mixed.C103_violated_constant",
    "Verif.Unif.Mixed.C103_statement_false",
    "Verif.Unif.Mixed.C103_violated_function",
    "Verif.Unif.Mixed.C103_complete_false",
    "Verif.Unif.Mixed.C103_disjoint",
    "Verif.Unif.Mixed.C103_general",
    "Verif.Unif.Mixed.C103_violated_unresolved"
   ],
   "note": "Type arguments are found again for all terms. Merging is exact for ground values without polymorphic symbols. With polymorphic symbols both directions are false: constants that differ in type arguments are merged, functions with the same type arguments are refused.; Substitutions with ground values for different metavariables are merged to their union, with polymorphic symbols too."
  }
 ]
}
