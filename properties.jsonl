{"id": "C01", "title": "Ordered set: membership is exact after any history of Add/Remove", "statement": "Starting from the empty set, after any sequence of Add and Remove calls, Contains(x) answers true exactly when the last operation that mentioned x was an Add. No rebalancing ever loses or invents an element.", "quantifier": "every finite sequence of Add/Remove operations over any totally ordered element type, every queried element", "why_tests_cant": "Rebalancing depends on the whole insertion/removal history; a finite test set visits only a few tree shapes.", "anchors": ["src/Lib/sets.go: Set.Add, Set.Remove, Set.Contains, rebalance, rotateLeft, rotateRight, insert, remove, find"]}
{"id": "C02", "title": "Ordered set: union, intersection, difference and disjointness are the mathematical ones", "statement": "For sets built through the API, Union/Inter/Diff contain exactly the elements of the mathematical union/intersection/difference of their operands, and Disjoint is true exactly when no element is in both.", "quantifier": "every pair of sets reachable through the API", "why_tests_cant": "The result must agree on every element for every pair of tree shapes.", "anchors": ["src/Lib/sets.go: Set.Union, Set.Inter, Set.Diff, Set.Disjoint"]}
{"id": "C03", "title": "Ordered set: Elements lists each member exactly once and Cardinal counts them", "statement": "For a set built through the API, Elements returns a list with no repeated element whose members are exactly the members of the set; Cardinal is its length and IsEmpty is true exactly when it is empty.", "quantifier": "every set reachable through the API", "why_tests_cant": "Needs the search-tree invariant for every history.", "anchors": ["src/Lib/sets.go: Set.Elements, Set.Cardinal, Set.IsEmpty"]}
{"id": "C04", "title": "Ordered set: Filter keeps exactly the elements satisfying the predicate", "statement": "Filter(pred) returns the set of those members of the receiver for which pred is true.", "quantifier": "every set reachable through the API and every predicate", "why_tests_cant": "Must hold for all predicates and all sets.", "anchors": ["src/Lib/sets.go: Set.Filter"]}
{"id": "C05", "title": "Ordered set: the tree stays balanced", "statement": "After any history of operations the search tree stays height balanced (sub-tree heights differ by at most one at every node), so lookups are logarithmic in the number of elements.", "quantifier": "every finite sequence of operations", "why_tests_cant": "A worst case over all histories cannot be sampled.", "anchors": ["src/Lib/sets.go: rebalance, insert, remove, newHeight"]}
{"id": "C06", "title": "Ordered set: Copy is faithful", "statement": "Copy returns a set with the same members, and it remains a correctly working set under later Add/Remove calls (same answers as operating on the original).", "quantifier": "every set reachable through the API and every later history", "why_tests_cant": "Requires comparing two infinite families of histories.", "anchors": ["src/Lib/sets.go: Set.Copy, nodeCpy"]}
{"id": "C07", "title": "Parallel fan-out: the collected result does not depend on scheduling", "statement": "When results of parallel workers are combined with an associative and commutative operation with the given neutral element, the combined result is the same for every order in which the workers answer, and every worker is counted exactly once.", "quantifier": "every number of workers, every list of answers, every arrival order", "why_tests_cant": "Schedules cannot be enumerated by tests.", "anchors": ["src/Lib/par.go: GenericParallel, genericSelect"]}
{"id": "C08", "title": "List utilities behave as mathematical lists", "statement": "Add appends only elements not already present (so a duplicate-free list stays duplicate-free and the members are the union); RemoveAt deletes exactly one position and keeps all others in order; Equals is pointwise equality; IndexOf returns the first position of an equal element.", "quantifier": "every list, element and index", "why_tests_cant": "Universal over inputs, including boundaries.", "anchors": ["src/Lib/list.go: List.Add, List.RemoveAt, List.Equals, List.IndexOf, List.Contains"]}
{"id": "C09", "title": "List.RemoveAll removes every equal element", "statement": "After RemoveAll(x) the list contains no element equal to x, all other elements remain in order, and the call does not crash.", "quantifier": "every list and element", "why_tests_cant": "Depends on the positions of the duplicates in the list.", "anchors": ["src/Glob/list.go: List.RemoveAll, List.remove"]}
{"id": "C10", "title": "Task queue: every task runs exactly once, one at a time", "statement": "Under every interleaving of goroutines calling AddTask, every added task is executed exactly once and two tasks are never executed at the same time; hence a shared counter driven by the queue never loses an update.", "quantifier": "every number of goroutines, every task, every interleaving", "why_tests_cant": "Data races depend on schedules that tests do not control.", "anchors": ["src/Glob/syncTaskList.go: SyncTaskList.AddTask, SyncTaskList.doTasks", "src/Glob/syncCounter.go: SyncCounter.Increment, SyncCounter.Decrement"]}
{"id": "C11", "title": "Term and formula equality is an equivalence that identifies exactly same-structure expressions", "statement": "Equals on terms and on formulas is reflexive, symmetric and transitive, and two expressions are Equals exactly when they are built the same way from symbols with the same identity (names and occurrence numbers play no role).", "quantifier": "every pair/triple of terms and formulas", "why_tests_cant": "Quantifies over an infinite, recursively defined domain.", "anchors": ["src/AST/termsDef.go: Id.Equals, Fun.Equals, Var.Equals, Meta.Equals", "src/AST/formsDef.go: *.Equals", "src/AST/quantifiers.go"]}
{"id": "C12", "title": "Symbol identity: fresh means fresh, same name means same symbol", "statement": "Every symbol produced by a fresh-symbol maker has an identity different from every symbol produced before or after it, under any interleaving of goroutines; and asking twice for a named symbol yields the same identity, also when the two requests are concurrent.", "quantifier": "every interleaving of any number of maker calls", "why_tests_cant": "Concurrency: depends on the schedule.", "anchors": ["src/AST/maker.go: MakerId, MakerVar, MakerNewId, MakerNewVar, MakerMeta"]}
{"id": "C13", "title": "Applying a substitution to a term replaces every occurrence of the metavariable", "statement": "Applying {X -> u} to a term t yields t with all occurrences of X replaced by u: X does not occur in the result unless it occurs in u, and its meaning in any interpretation is the meaning of t with X assigned the value of u.", "quantifier": "every term, metavariable and replacement; every interpretation", "why_tests_cant": "Semantic equality in all interpretations over all terms.", "anchors": ["src/Core/substitutions_search.go: ApplySubstitutionOnTerm, ApplySubstitutionOnTermList"]}
{"id": "C14", "title": "Replacing a metavariable in a formula replaces every occurrence", "statement": "Instantiating a metavariable X by u in a formula (the operation used when a substitution is applied to the formulas of a branch and when a rewrite rule is instantiated) leaves no occurrence of X when X does not occur in u, and means the same as evaluating the formula with X set to the value of u.", "quantifier": "every formula, metavariable, replacement term and interpretation", "why_tests_cant": "Depends on repeated occurrences at arbitrary depth.", "anchors": ["src/AST/formsDef.go: Pred.ReplaceMetaByTerm", "src/AST/termsDef.go: Fun.ReplaceSubTermBy", "src/AST/term-list.go: replaceFirstOccurrenceTermList", "src/Core/substitutions_search.go: ApplySubstitutionsOnFormula"]}
{"id": "C15", "title": "Simplifying stacked negations preserves meaning", "statement": "Removing stacked negations from a formula yields a formula with the same truth value in every interpretation, never starting with two negations.", "quantifier": "every formula and interpretation", "why_tests_cant": "Semantic equivalence over all interpretations.", "anchors": ["src/AST/formula.go / formsDef.go: SimplifyNegations, RemoveNeg, getDeepFormWithoutNot"]}
{"id": "C16", "title": "Reading a formula preserves its meaning", "statement": "The connectives <=, <~>, ~|, ~& of the input language and the flattening of nested conjunctions/disjunctions into n-ary ones produce internal formulas with the truth value of the written formula; flattening the axiom list does not change its meaning.", "quantifier": "every parsed formula and interpretation", "why_tests_cant": "Semantic equivalence over all formulas and interpretations.", "anchors": ["src/Parser/psyntax.go: MkPXor, MkPNotOr, MkPNotAnd, MkPRevImp", "src/Engine/syntax-translation.go: elaborateForm, maybeFlattenBin, flatten", "src/AST/form-list.go: FlattenAnd"]}
{"id": "C17", "title": "Renaming bound variables preserves meaning and makes binders distinct", "statement": "Renaming the bound variables of an input formula produces a formula with the same truth value in every interpretation in which every binder introduces a variable used by no other binder.", "quantifier": "every formula and interpretation", "why_tests_cant": "Variable capture only shows on particular nestings.", "anchors": ["src/AST/formsDef.go, quantifiers.go: RenameVariables", "src/AST/formula.go: replaceTermInTermList"]}
{"id": "C18", "title": "Every formula has exactly one kind of expansion rule, and that rule decomposes it", "statement": "Each formula that can appear on a branch is either a literal or is expanded by exactly one of the alpha, beta, gamma, delta rules; the expansion produces strictly smaller formulas for alpha and beta, so formulas are never silently dropped and propositional expansion terminates.", "quantifier": "every formula", "why_tests_cant": "Exhaustiveness over an infinite domain.", "anchors": ["src/Core/rules_type.go: ShowKindOfRule", "src/Search/rules.go: ApplyAlphaRules, ApplyBetaRules", "src/Search/state.go: DispatchForm"]}
{"id": "C19", "title": "Alpha expansion is an equivalence", "statement": "In every interpretation a conjunctive (alpha) formula is true exactly when all the formulas its expansion adds to the branch are true.", "quantifier": "every alpha formula, every interpretation", "why_tests_cant": "Semantic equivalence over all interpretations.", "anchors": ["src/Search/rules.go: ApplyAlphaRules"]}
{"id": "C20", "title": "Beta expansion is an equivalence", "statement": "In every interpretation a disjunctive (beta) formula is true exactly when, for at least one of the branches its expansion creates, all formulas added to that branch are true.", "quantifier": "every beta formula, every interpretation", "why_tests_cant": "Semantic equivalence over all interpretations.", "anchors": ["src/Search/rules.go: ApplyBetaRules"]}
{"id": "C21", "title": "Gamma expansion only adds consequences", "statement": "If a universal formula is true in an interpretation then the instance produced by the gamma rule is true whatever element the new metavariable denotes; remaining quantified variables stay quantified.", "quantifier": "every universal (or negated existential) formula, interpretation and value of the new metavariable", "why_tests_cant": "Semantic, all interpretations.", "anchors": ["src/Core/instanciation.go: Instantiate, RealInstantiate", "src/Search/rules.go: ApplyGammaRules"]}
{"id": "C22", "title": "Delta expansion preserves satisfiability", "statement": "If a set of formulas containing an existential (or negated universal) formula is true in some interpretation for all values of the metavariables, then some interpretation that differs only on the new Skolem symbol also makes the Skolemised formula true for all values of the metavariables.", "quantifier": "every existential formula, branch and interpretation", "why_tests_cant": "Requires a model construction for all interpretations.", "anchors": ["src/Core/Sko/*.go", "src/Core/skolemisation.go", "src/Search/rules.go: ApplyDeltaRules"]}
{"id": "C23", "title": "A closed tableau proves unsatisfiability", "statement": "If, starting from a formula, expansion with the alpha/beta/gamma/delta rules leads to a tree whose every branch contains, after one common substitution of the metavariables, false, a negated truth, or an atom and its negation, then the initial formula has no model.", "quantifier": "every formula, every expansion tree, every substitution", "why_tests_cant": "It is the soundness theorem of the prover: universal over inputs, trees and interpretations.", "anchors": ["src/Search/rules.go", "src/Search/destructive.go: ProofSearch, applyRules", "src/Core/instanciation.go"]}
{"id": "C24", "title": "Unifiers are in solved form", "statement": "A substitution returned by the unification procedures (other than the failure value) maps metavariables to terms in which none of its own metavariables occurs (so applying it twice is applying it once), and no metavariable is mapped to a term properly containing it.", "quantifier": "every pair of terms and initial substitution", "why_tests_cant": "Cyclic bindings arise only for particular combinations.", "anchors": ["src/Unif/substitutions_type.go: Eliminate, OccurCheckValid, EliminateMeta", "src/Unif/substitutions_tree.go: AddUnification"]}
{"id": "C25", "title": "Unification is sound", "statement": "When unifying two terms under an initial substitution succeeds, the resulting substitution makes the two terms equal and satisfies every binding of the initial substitution.", "quantifier": "every pair of terms, every initial substitution", "why_tests_cant": "Infinite input domain; error shows only for particular nested shared variables.", "anchors": ["src/Unif/substitutions_tree.go: AddUnification, addUnifications, tryUnification"]}
{"id": "C26", "title": "Unification succeeds on every unifiable pair", "statement": "If two terms have a common instance, unification of them succeeds.", "quantifier": "every pair of terms", "why_tests_cant": "Universally quantified over inputs with an existential premise.", "anchors": ["src/Unif/substitutions_tree.go: AddUnification", "src/Unif/substitutions_type.go: Eliminate, EliminateMeta"]}
{"id": "C27", "title": "Unifiers are most general", "statement": "Every substitution that makes the two terms equal and satisfies the initial bindings also satisfies all bindings of the computed unifier.", "quantifier": "every pair of terms, initial substitution and unifier", "why_tests_cant": "Quantifies over all unifiers.", "anchors": ["src/Unif/substitutions_tree.go: AddUnification", "src/Unif/substitutions_type.go: Eliminate"]}
{"id": "C28", "title": "Merging two substitutions satisfies both", "statement": "When merging two substitutions succeeds, the result satisfies every binding of each; and when both are satisfied by some instantiation, that instantiation satisfies the merged one.", "quantifier": "every pair of substitutions", "why_tests_cant": "Infinite domain.", "anchors": ["src/Unif/substitutions_tree.go: MergeSubstitutions"]}
{"id": "C29", "title": "The term index stores exactly what was inserted", "statement": "Inserting formulas one after another into the index, in any order, and in one batch or several, results in an index from which exactly the inserted formulas are reachable, each along its own instruction sequence; earlier entries are never lost.", "quantifier": "every sequence of insertions", "why_tests_cant": "Prefix sharing/splitting depends on the whole history.", "anchors": ["src/Unif/code-trees.go: insert, followInstructions, makeCodeTree, InsertFormulaListToDataStructure"]}
{"id": "C30", "title": "Index search is equivalent to trying every stored formula", "statement": "Searching the index for a formula returns exactly what running the matcher along every stored formula's instruction sequence one by one would return, irrespective of sharing and of the order in which parallel sub-searches answer.", "quantifier": "every index, every query, every arrival order", "why_tests_cant": "Schedules and tree shapes cannot be enumerated.", "anchors": ["src/Unif/matching.go: unifyAux, launchChildrenSearch", "src/Unif/machine.go"]}
{"id": "C31", "title": "Reintroduction is fair", "statement": "The quantified formula chosen for re-instantiation is always one that was re-instantiated the fewest times; consequently, over any run, the numbers of re-instantiations of any two formulas present differ by at most one, and no formula is starved.", "quantifier": "every run of reintroductions on any list of formulas", "why_tests_cant": "Liveness/fairness over unbounded runs.", "anchors": ["src/Core/meta_gen.go: chooseLessReintroducedMeta, ReintroduceMeta"]}
{"id": "C32", "title": "Backtracking never loses a candidate substitution", "statement": "Choosing the next substitution to try returns one of the candidates and leaves exactly all the other candidates for later; hence every candidate is eventually tried once.", "quantifier": "every list of candidates, every random choice", "why_tests_cant": "Random choice; all lists.", "anchors": ["src/Search/destructive.go: chooseSubstitutionDestructive, tryBTSubstitution", "src/Core/subst_and_form.go: RemoveSubstFromSubstAndFormList"]}
{"id": "C33", "title": "A branching node reports a substitution to its parent only if all of its sub-branches agree on it", "statement": "When a node whose children all closed forwards substitutions to its own parent as closing it, every forwarded substitution is one under which each child that answered with substitutions is closed; this holds for any order in which the children answer.", "quantifier": "every number of children, every set of answers, every arrival order", "why_tests_cant": "Depends on the answer order of concurrent children.", "anchors": ["src/Search/destructive.go: selectChildren, waitChildren", "src/Search/child_management.go: passSubstToParent"]}
{"id": "C34", "title": "Stopping the children of a node always terminates and leaves none running", "statement": "When a node tells its children to stop, in every interleaving every child is stopped: each one either receives the stop order or has its pending answer consumed, and a child that waits for a reply after answering also gets one; the operation never blocks forever.", "quantifier": "every number of children in any state, every interleaving", "why_tests_cant": "Deadlocks are schedule dependent.", "anchors": ["src/Search/children.go: closeChildren, sendSubToFather", "src/Search/destructive.go: waitFather, manageQuitOrder"]}
{"id": "C35", "title": "The printed verdict is faithful to the search result", "statement": "VALID/Theorem or Unsatisfiable is printed exactly when the search reported a closed tableau; Theorem/CounterSatisfiable are used exactly when the problem has a conjecture, and Unsatisfiable/Satisfiable otherwise.", "quantifier": "every search result and problem", "why_tests_cant": "Decision logic that all runs go through.", "anchors": ["src/Search/search.go: PrintSearchResult", "src/main.go: doConjectureStatement"]}
{"id": "C36", "title": "Type schemes are instantiated correctly", "statement": "Instantiating a polymorphic type with as many types as it has parameters replaces every parameter by the corresponding type and nothing else; argument and result types of the instance are the instances of those of the scheme; a wrong number of types is rejected.", "quantifier": "every type scheme and list of types", "why_tests_cant": "Infinite domain of types.", "anchors": ["src/AST/ty-syntax.go: InstantiateTy, instantiateTyRec, GetArgsTy, GetOutTy, SubstTy"]}
{"id": "C37", "title": "Accepted formulas are well typed", "statement": "If type checking accepts a formula then every application in it has the declared number of arguments, and every argument term has exactly the type the applied symbol expects; the answer does not depend on the scheduling of the parallel checks.", "quantifier": "every environment, context and formula; every schedule", "why_tests_cant": "Soundness over all formulas.", "anchors": ["src/Typing/rules.go: TypeCheck, typecheckForm, typecheckTerm, checkFunctional", "src/Typing/env-and-context.go"]}
{"id": "C38", "title": "The term ordering is a simplification order", "statement": "On variable-free terms the term ordering used for equality reasoning is total, irreflexive, antisymmetric and transitive, is compatible with function application, and makes every term bigger than its sub-terms; whenever it declares two terms with metavariables comparable, every instance of them is ordered in the same way; over finitely many symbols it has no infinite descending chain.", "quantifier": "all terms and all substitutions", "why_tests_cant": "Order axioms quantify over triples of arbitrary nested terms.", "anchors": ["src/Mods/equality/bse/lpo.go: compareLPO"]}
{"id": "C39", "title": "Congruence closure decides equality of ground terms", "statement": "After adding a list of assumed equations, two ground terms are reported equal exactly when they are equal in every interpretation satisfying the equations.", "quantifier": "every list of equations and every pair of ground terms", "why_tests_cant": "Semantic consequence in all interpretations.", "anchors": ["src/Mods/equality/sateq/problem.go: getEquivalenceClass, addNewTermRecord, mergeEquivalenceClasses, AddAssumption, HasTrivialGoals"]}
{"id": "C40", "title": "Equivalence-class bookkeeping is exact", "statement": "After any sequence of class creations and merges, two classes are reported congruent exactly when they are connected by merges; path compression never changes an answer and looking up a representative always terminates.", "quantifier": "every sequence of create/merge/find operations", "why_tests_cant": "Depends on the whole history of mutations.", "anchors": ["src/Mods/equality/sateq/termrep.go: eqClass.representative, eqClass.merge, eqClass.congruent"]}
{"id": "C41", "title": "Copying an equality problem isolates the copy", "statement": "After copying an equality problem, adding assumptions to one of the two does not change the answers of the other (each branch of the proof only sees its own equations).", "quantifier": "every problem and every later history of additions", "why_tests_cant": "Aliasing shows up only for particular histories.", "anchors": ["src/Mods/equality/sateq/problem.go: Problem.Copy", "src/Search/state.go: State.Copy"]}
{"id": "C42", "title": "Rewrite rules made from axioms are consequences of the axiom", "statement": "Every rewrite rule registered from an axiom rewrites a literal into a formula implied by that literal together with the axiom, for every instance; an axiom that is consumed as rewrite rules in the equivalence case is itself implied by the rules.", "quantifier": "every axiom, every interpretation, every instance", "why_tests_cant": "Semantic consequence in all interpretations.", "anchors": ["src/Mods/dmt/axiom_registration.go: RegisterAxiom, makeRewriteRuleFromEquivalence, makeRewriteRuleFromImplication"]}
{"id": "C43", "title": "The formula sent to the search means axioms and negated conjecture", "statement": "The formula built from the statements of a problem is satisfiable exactly when all axioms together with the negation of the conjecture are; a problem with two conjectures is rejected, and a problem without formulas is reported as such.", "quantifier": "every list of statements (including nested includes), every interpretation", "why_tests_cant": "Semantic over all interpretations and all statement lists.", "anchors": ["src/main.go: StatementListToFormula, doAxiomStatement, doConjectureStatement"]}
{"id": "C44", "title": "Typed problems are always type checked", "statement": "If any formula or declaration of the problem, in the main file or in an included file, is typed, then the formula sent to the search has been type checked.", "quantifier": "every statement list with nested includes", "why_tests_cant": "All combinations of includes.", "anchors": ["src/main.go: presearchLoader, StatementListToFormula, checkForTypedProof"]}
{"id": "C45", "title": "Global unifier bookkeeping keeps only compatible substitutions", "statement": "AddSubstitutions keeps every recorded pair of a cleaned and an actual substitution and adds exactly the new one; PruneUncompatibleSubstitutions keeps exactly the pairs whose cleaned substitution can be merged with the given one; every substitution in the result of Merge or MergeUnifierList over branches that each recorded something satisfies a recorded substitution of every branch; GetUnifier returns a recorded substitution.", "quantifier": "every unifier, every list of unifiers and all substitutions", "why_tests_cant": "Infinite domain, arbitrary histories.", "anchors": ["src/Core/global_unifier.go: AddSubstitutions, PruneUncompatibleSubstitutions, Merge, MergeUnifierList, GetUnifier"]}
{"id": "C46", "title": "Branches are isolated", "statement": "The state given to a child branch contains all formulas and metavariables of the parent, treats all of the parent's metavariables as shared (owned by an ancestor), and later changes in one branch are not visible in another.", "quantifier": "every state and history of updates", "why_tests_cant": "Aliasing depends on histories.", "anchors": ["src/Search/state.go: State.Copy"]}
{"id": "C47", "title": "Formulas with fresh Skolem symbols never clash", "statement": "Two different Skolemisation steps never introduce the same Skolem symbol for different formulas, and the symbol is applied to all metavariables the chosen Skolemisation strategy must depend on.", "quantifier": "every run", "why_tests_cant": "Freshness is a property of all histories.", "anchors": ["src/Core/Sko/interface.go: genFreshSymbol", "src/Core/Sko/outer-skolemization.go", "src/Core/Sko/inner-skolemization.go", "src/Core/Sko/preinner-skolemization.go"]}
{"id": "C48", "title": "Iterative deepening: the bound limits each round and grows until success", "statement": "Each search round is run with a finite instantiation budget; a failed round is followed by a round with a strictly larger budget unless one-step mode or the bound is exhausted; the reported result is the result of the last round.", "quantifier": "every bound and every sequence of round outcomes", "why_tests_cant": "All sequences of outcomes.", "anchors": ["src/Search/destructive.go: Search, doOneStep"]}
{"id": "C49", "title": "The alternative (incremental) expansion rules agree with the main ones", "statement": "The incremental search decomposes every propositional formula into branches whose disjunction is equivalent to the formula, as the main search does.", "quantifier": "every formula, every interpretation", "why_tests_cant": "Semantic equivalence over all interpretations.", "anchors": ["src/Search/incremental/rules.go: makeCorrectRule, apply"]}
{"id": "C50", "title": "Combining answers of sibling branches in the incremental search is sound", "statement": "A combined substitution built from the closing substitutions of two sibling branches binds every metavariable bound in either of them to the term it had there.", "quantifier": "every pair of substitution lists", "why_tests_cant": "Infinite domain.", "anchors": ["src/Search/incremental/substitution.go: buildCompatibleWith, isCompatibleWith, getCompatibleBetween"]}
{"id": "C51", "title": "The reported metavariables of a formula are exactly those occurring in it", "statement": "The set of metavariables reported for a formula contains exactly the metavariables occurring in its terms, each once, so a Skolem term built from it depends on every metavariable of the formula.", "quantifier": "every formula, however deeply nested", "why_tests_cant": "Unbounded formulas; the set is built by merging balanced trees.", "anchors": ["src/AST/formsDef.go: GetMetas", "src/AST/termsDef.go: GetMetas", "src/Lib/sets.go"]}
{"id": "C52", "title": "Lists behave as values", "statement": "Extending a list with Append or ListAdd gives its old elements followed by the new ones, and no list made earlier (other extensions of the same list, sublists, copies) changes its elements.", "quantifier": "every list, every history of operations, every amount of spare room the run time system leaves in arrays", "why_tests_cant": "Whether an extension overwrites an earlier one depends on array capacities chosen by the run time system.", "anchors": ["src/Lib/list.go: Append, Add, ListAdd, Slice, Copy, ListCpy"]}
{"id": "C53", "title": "Glob.Map is a finite map", "statement": "After any sequence of Set, Unset, Clear and CopyInto, GetExists returns the value last set for the key, Length is the number of keys with a value, Set returns the value it replaces, and no operation crashes.", "quantifier": "every sequence of operations, every key type whose Equals is an equivalence", "why_tests_cant": "Unbounded operation sequences.", "anchors": ["src/Glob/map.go: GetExists, Set, Unset, Length, Clear, CopyInto"]}
{"id": "C54", "title": "Proof nodes get distinct identifiers", "statement": "Any two calls of IncrCptNode return different numbers.", "quantifier": "every number of goroutines and every interleaving", "why_tests_cant": "The claim is about all interleavings.", "anchors": ["src/Glob/helper.go: IncrCptNode, GetCptNode"]}
{"id": "C55", "title": "Cleaning a substitution for the parent keeps its constraints on the parent's metavariables", "statement": "RemoveElementWithoutMM(s, mm) returns a substitution over which every instantiation of the parent's metavariables that extends to an instantiation respecting s is exactly one that respects the result; in particular two parent metavariables forced equal by s stay forced equal.", "quantifier": "every substitution in solved form and every set of parent metavariables", "why_tests_cant": "A claim about all substitutions and all instantiations.", "anchors": ["src/Core/substitutions_search.go: RemoveElementWithoutMM, ReorganizeSubstitution"]}
{"id": "C56", "title": "Cleaned and original substitutions are paired correctly", "statement": "DispatchSubst returns the cleaned and the original substitutions such that the i-th cleaned one was obtained from the i-th original one; substitutions that do not concern the parent are returned separately, and none is lost.", "quantifier": "every list of substitutions and every set of parent metavariables", "why_tests_cant": "The pairing goes wrong only for particular repetitions in the list.", "anchors": ["src/Core/substitutions_search.go: DispatchSubst", "src/Search/destructive.go: ManageClosureRule"]}
{"id": "C57", "title": "No process of the search is left waiting forever", "statement": "In every interleaving of the processes of the search, as long as the main goroutine has no result some process of its tree can go on, and every process that no longer has a father has ended or can go on: none is left waiting for an order or an answer that nobody will send.", "quantifier": "every tree of processes the search can build, every interleaving, with and without rewriting", "why_tests_cant": "A forgotten goroutine is not observable in the result, and deadlocks are schedule dependent.", "anchors": ["src/Search/destructive.go: waitChildren, waitFather, selectChildren, manageResult", "src/Search/children.go: closeChildren, sendSubToChildren, sendSubToFather", "src/Search/child_management.go: manageOpenedChild, manageBacktrackForDMT"]}
{"id": "C58", "title": "Bindings of a branch's own metavariables are not reported to its father", "statement": "After PruneMetasInSubsts(metas) no cleaned substitution in the unifier binds one of the metavariables; pairs whose cleaned substitutions become equal are grouped and no actual substitution is lost.", "quantifier": "every unifier and every set of metavariables", "why_tests_cant": "Arbitrary unifiers; the effect is only visible in which records are grouped.", "anchors": ["src/Core/global_unifier.go: PruneMetasInSubsts"]}
{"id": "C59", "title": "Simplified ordering constraints keep their solutions", "statement": "When the check of an ordering constraint (s is smaller than t, or s equals t) declares it decided, the decision holds for every variable-free instance of the constraint; when it does not, the constraint it puts in its place has exactly the same solutions.", "quantifier": "all constraints, all substitutions", "why_tests_cant": "The solutions of a constraint are infinitely many substitutions; a test checks some of them.", "anchors": ["src/Mods/equality/bse/constraints_type.go: checkLPO", "src/Mods/equality/bse/lpo.go: caseFEqualsG"]}
{"id": "C60", "title": "Ordered set: sets behave as values", "statement": "Adding an element to a set returns a set with the old members and the new one, and every set value obtained earlier keeps exactly its members.", "quantifier": "every sequence of additions to any of the sets obtained so far", "why_tests_cant": "The effect on older values depends on the shape of the trees they share nodes with; tests look at one set at a time.", "anchors": ["src/Lib/sets.go: Add, insert, rotateLeft, rotateRight", "src/Typing/env-and-context.go: Con.add"]}
{"id": "C61", "title": "Axioms consumed as rewrite rules are not lost", "statement": "Registering an axiom as rewrite rules never crashes, and an axiom that is consumed by the registration is implied by the rewrite rules registered for it.", "quantifier": "every axiom, every set of options, every interpretation", "why_tests_cant": "Semantic consequence in all interpretations, for every shape of axiom.", "anchors": ["src/Mods/dmt/axiom_registration.go: RegisterAxiom, makeRewriteRuleFromImplication, makeRewriteRuleFromEquivalence, isEqualityPred", "src/main.go: doAxiomStatement"]}
{"id": "C63", "title": "Combined closing substitutions of the incremental search have a common instance", "statement": "A combination built from the closing substitutions of sibling branches, each of which can be satisfied, can itself be satisfied: some instantiation of the metavariables respects all its bindings, and so closes all the branches at once.", "quantifier": "every list of children and every list of substitutions for each of them", "why_tests_cant": "Satisfiability of a set of bindings is a statement about all terms; cycles through several substitutions are easily missed by samples.", "anchors": ["src/Search/incremental/substitution.go: buildCompatibleWith, isCompatibleWith, getCompatibleBetween", "src/Search/incremental/subsManager.go: getCompatibleSubs"]}
{"id": "C62", "title": "Universal formulas can be used as often as needed in the incremental search", "statement": "When the incremental search instantiates a universal formula on a branch, the formula stays available for further instantiation on the branches below it.", "quantifier": "every universal formula (also a negated existential one), every state of the rules of a branch, every schedule", "why_tests_cant": "A problem that needs only one instance of each formula closes either way; whether any state of any search reintroduces a formula is a statement about all runs.", "anchors": ["src/Search/incremental/rules.go: GammaRule, GammaForall.getVarList, GammaNotExists.getVarList", "src/Search/incremental/rulesManager.go: tryToApply, applyReintroductionRule", "src/Search/incremental/reintroList.go: AddReintro, TryToApply"]}
{"id": "C64", "title": "A tree reported closed by the incremental search refutes the formula", "statement": "If the incremental search started on a closed formula ends and reports the tree closed, the formula has no model.", "quantifier": "every closed formula, every order of answers of the index, every schedule of the goroutines, every interpretation", "why_tests_cant": "The verdict depends on the schedule and on substitutions combined across branches; soundness quantifies over all interpretations.", "anchors": ["src/Search/incremental/searchNode.go: getResult, doSearch, doKeepGoing, continueSearch, keepGoing", "src/Search/incremental/subsManager.go: sendClosingSubsToFather, addClosingSubs, tryingAgain", "src/Search/incremental/closureManager.go: isTreeClosed, shouldKeepGoing", "src/Search/incremental/rulesManager.go: tryClosureRules"]}
{"id": "C65", "title": "A proof reported by the main search refutes the formula", "statement": "If the default (destructive) search started on a closed formula without equality ends a step by reporting the tableau closed, the formula has no model.", "quantifier": "every closed first-order formula without equality, every limit, every schedule of the goroutines, every random choice, every order of the answers of the index, every interpretation", "why_tests_cant": "The verdict depends on the interleaving of the processes and on the substitutions exchanged between them; soundness quantifies over all schedules and all interpretations.", "anchors": ["src/Search/destructive.go: doOneStep, ProofSearch, waitChildren, selectChildren, waitFather, ManageClosureRule, applyRules", "src/Search/children.go: sendSubToFather, sendSubToChildren, closeChildren", "src/Search/child_management.go: passSubstToParent, selectCloseByItself, backtrack", "src/Core/substitutions_search.go: RemoveElementWithoutMM, DispatchSubst"]}
{"id": "C66", "title": "The witness of a quantifier step is recovered exactly when a proof is written out", "statement": "From a quantified formula and the instance of it in the finished proof, the GS3 translation recovers the term that was substituted for the variable, for Skolem terms and for values of metavariables, and nil exactly when the variable does not occur; it never stops with an anomaly.", "quantifier": "every quantified formula, every Skolem term, every value of the metavariable", "why_tests_cant": "The recovery follows the positions of the variable in formulas of unbounded size and shape; tests see a few formulas.", "anchors": ["src/Mods/gs3/dependency.go: manageGammasInstantiations, manageDeltasSkolemisations, getResultTerm, getVariableOccurrencesForm, getTermAt", "src/Mods/gs3/proof.go: manageGammaStep, manageDeltaStep", "src/AST/formsDef.go: ReplaceMetaByTerm"]}
{"id": "C67", "title": "The GS3 proof built from a closed tableau is a refutation", "statement": "From a closed tableau for a formula, the translation to the sequent calculus GS3, which reorders the steps so that Skolem symbols are introduced before they are used, produces without failure a tree in which each step is a correct instance of a rule for a formula among the hypotheses, and each Skolem symbol is new when it is introduced.", "quantifier": "every formula, every closed tableau for it", "why_tests_cant": "The translation reorders and rebuilds proofs of any size and shape; a wrong order only shows for particular dependencies between quantifier steps.", "anchors": ["src/Mods/gs3/proof.go:113-127: MakeGS3Proof, makeProof, makeProofOneStep, manageDeltaStep, weakenForms, rebuildProof", "src/Mods/gs3/sequent.go: setAppliedOn, setHypotheses", "src/Mods/rocq/proof.go: makeProof, makeProofFromGS3"]}
{"id": "C68", "title": "Rewriting a literal with axioms is sound and brings in no foreign metavariables", "statement": "When deduction modulo theory rewrites a literal with the rules made from axioms, the call does not fail, and every formula it returns follows from the literal and the axioms once the returned substitution is applied; neither formula nor substitution contains metavariables that are not those of the literal. A literal is returned unchanged as a failure exactly when no rule matches it, every matching rule contributes its result, and truth and falsity come first.", "quantifier": "every set of rules, every literal, every order of the answers of the index, every interpretation", "why_tests_cant": "The rules are found by unification in an index whose answers depend on all terms involved; soundness quantifies over all interpretations.", "anchors": ["src/Mods/dmt/rewrite.go: Rewrite, getRewrittenFormulas, addRewrittenFormulas, sortUnifications, isFiltering, checkMetaAreFromSearch", "src/Mods/dmt/rewritten.go: substitute", "src/Mods/dmt/utils.go: rewriteMapInsertion", "src/Core/substitutions_search.go: RemoveElementWithoutMM"]}
{"id": "C69", "title": "Equality reasoning is sound", "statement": "When the equality module answers a goal s = t on a branch with equalities E, every substitution it returns makes the goal follow from E: in every interpretation in which the bindings and the equalities hold, s and t are equal. In particular a branch is never closed by an answer when its equalities and its negated goal have a common model.", "quantifier": "all equalities and goals, all orders of symbols, every schedule of the goroutines, every interpretation", "why_tests_cant": "The answer comes from a race between goroutines that each apply one rewriting step; soundness quantifies over all interpretations and all chains of steps.", "anchors": ["src/Mods/equality/bse/equality_rules_apply.go: applyLeftRule, applyRightRule, applyEQRule", "src/Mods/equality/bse/equality_solve_reasoning_problem.go: equalityReasoningProblem", "src/Mods/equality/bse/equality_rules_utils.go: checkUnif", "src/Mods/equality/bse/constraints_struct.go: isConsistantWith"]}
{"id": "C70", "title": "Equality reasoning is complete on ground goals", "statement": "When a goal without metavariables follows from equalities without metavariables, the equality module answers it.", "quantifier": "all ground equalities and goals, all orders of symbols, every schedule of the goroutines", "why_tests_cant": "A goal that is entailed may need an arbitrary long chain of steps; a missing answer can only be shown by exhausting all runs.", "anchors": ["src/Mods/equality/bse/equality_rules_try_apply.go: tryApplyLeftRules, tryApplyRightRules", "src/Mods/equality/bse/equality_rules_apply.go: applyLeftRule, applyRightRule", "src/Mods/equality/bse/equality_solve_reasoning_problem.go: manageRLRules"]}
{"id": "C71", "title": "On ground problems equality reasoning ends with an answer that does not depend on the schedule", "statement": "On equalities and goals without metavariables no goroutine of the equality module panics, no chain of goroutines starting each other is infinite, the call answers, and whether it finds a solution is the same in every run; the only substitution it returns is the empty one.", "quantifier": "all ground equalities and goals, all orders of symbols, every order in which goroutines answer and every order of the answers of the index", "why_tests_cant": "Schedules cannot be enumerated, and termination concerns all inputs.", "anchors": ["src/Mods/equality/bse/equality_solve_reasoning_problem.go: launchEqualityReasoningProblem, equalityReasoningProblem, selectAnswerEP", "src/Mods/equality/bse/equality_rules_reasoning.go: Solve, equalityReasoningList, manageEqualityReasoningProblem", "src/Mods/equality/bse/lpo.go: compareLPO"]}
{"id": "C72", "title": "Solving a set of bindings always ends, with the right verdict", "statement": "Eliminate, which substitutes bindings into one another until nothing changes, ends on every list of bindings of distinct metavariables: with the bindings in solved form if no metavariable depends, through the bindings, on itself, and with the failure value if one does. When all bindings are to compound terms, it succeeds exactly when some assignment of terms satisfies all bindings.", "quantifier": "every list of bindings, of any length, with terms of any size and any dependency graph", "why_tests_cant": "The loops run until a flag stays down, with the bindings rewritten by stale copies of themselves; whether they end depends on the dependency graph, of which there are infinitely many.", "anchors": ["src/Unif/substitutions_type.go:268-290: Eliminate", "src/Unif/substitutions_type.go:293-335: eliminateInside", "src/Unif/substitutions_type.go:338-378: eliminateList"]}
{"id": "C73", "title": "The equality problem of a branch is that of its literals", "statement": "The problem built for the equality reasoning from the two indexes of a branch has exactly the equalities among the positive literals, and exactly one list of goals for each disequality and for each pair of a positive literal and a negated literal with the same predicate; it is reported as empty exactly if there are no equalities or no goals. Building it ends without a panic or an anomaly.", "quantifier": "every branch: any number of literals with terms of any shape, with any metavariables, and all indices the fresh metavariables of the queries may get", "why_tests_cant": "The literals are read back through unification with the index, whose answers bind either the metavariables of the query or those of the branch; whether the sides come back unchanged depends on the terms and on two counters of metavariables that a test starts at zero.", "anchors": ["src/Mods/equality/bse/equality_types.go:121-149: retrieveEqualities", "src/Mods/equality/bse/equality_types.go:183-200: orderSubstForRetrieve", "src/Mods/equality/bse/equality_problem_list.go:206-240: buildEqualityProblemMultiListFromPredList", "src/Mods/equality/bse/equality_problem_list.go:262-282: buildEqualityProblemMultiList", "src/AST/ty-syntax.go:299-305: MkTyMeta"]}
{"id": "C74", "title": "Equality reasoning on a branch uses only that branch", "statement": "However the goroutines of the search are interleaved, the structure that the equality reasoning on a branch solves has only equalities and goals of literals of that branch, with and without the option -increq.", "quantifier": "every sequence of steps of the search: literals added, states copied with any substitution, calls of the reasoning, on any number of branches", "why_tests_cant": "The structure is reached by a pointer kept in states that are copied by value; whether two branches share it depends on the order in which branches are split and solved.", "anchors": ["src/Search/state.go:385-425: State.Copy", "src/Mods/equality/bse/equality_rules_reasoning.go:57-66: AddAssumption, AddGoal", "src/Mods/equality/bse/equality_rules_reasoning.go:125-142: RunEqualityReasoning"]}
{"id": "C75", "title": "The equality reasoning closes exactly contradictory branches", "statement": "On a branch with equalities, EqualityReasoning ends; when it reports success there is a substitution, and no interpretation satisfies all literals of the branch under any of the substitutions it gives; and it reports success if no interpretation satisfies the literals.", "quantifier": "every branch, all interpretations of function and predicate symbols over any domain, all schedules of the sub-problems", "why_tests_cant": "Success must be justified in all interpretations of any domain, and completeness ranges over all sets of equalities.", "anchors": ["src/Mods/equality/bse/equality.go:107-115: EqualityReasoning", "src/Mods/equality/bse/equality_rules_reasoning.go:68-108: Solve", "src/Mods/equality/bse/equality_rules_reasoning.go:125-142: RunEqualityReasoning"]}
{"id": "C76", "title": "Refutations of typed problems respect the types", "statement": "If the search closes every branch of a well-sorted problem, no structure that interprets types by non-empty sets and functions and predicates according to their declared types satisfies the problem; in particular, when the equality reasoning closes a branch of well-sorted literals, no such structure satisfies the literals for all values of the metavariables in their types.", "quantifier": "every well-sorted formula or branch, all many-sorted structures", "why_tests_cant": "The claim is about all structures of all sizes of the sorts; a finite set of problems cannot show that an instance of another type is harmless.", "anchors": ["src/Unif/matching_substitutions.go:81: only use of the type of a metavariable in unification", "src/Unif/parsing.go:147-164: getFunctionalArguments", "src/Mods/equality/bse/equality_solve_reasoning_problem.go:58-243: equalityReasoningProblem"]}
{"id": "C77", "title": "Quantifiers over types are treated soundly", "statement": "If rule applications to a formula with quantified type variables lead to branches that one instance of the metavariables and type metavariables closes, then the formula has no model, whatever types and elements there are; in particular a universally quantified type variable may be instantiated by any type, and the constant that replaces a type variable of a negated universal formula stands for an arbitrary type.", "quantifier": "every formula whose bound variables are distinct, every sequence of rule applications, every instance, all structures", "why_tests_cant": "Soundness speaks about all interpretations of the type constructors; that one constant serves for all type variables only shows in particular proofs that no test suite of provable problems contains.", "anchors": ["src/Core/instanciation.go:75-121: RealInstantiate", "src/Core/skolemisation.go:121-157: realSkolemize", "src/AST/ty-syntax.go: SubstTy", "src/Search/rules.go:493-530: ApplyGammaRules"]}
{"id": "C78", "title": "The Rocq output is a proof of the problem", "statement": "For every proof that the prover finds, the Rocq output states that the axioms imply the conjecture and its script is accepted by Rocq; and whenever Rocq accepts a script written by the module, the conjecture follows from the axioms.", "quantifier": "every problem formula, every GS3 proof of it", "why_tests_cant": "The script depends on the shape of the proof (order of steps, names of hypotheses, constants cleared and introduced); that the names always match Rocq's context is an invariant over all proofs, not over the ones in a test suite.", "anchors": ["src/Mods/rocq/proof.go:52-78: makeRocqProofFromGS3", "src/Mods/rocq/proof.go:80-94: followProofSteps", "src/Mods/rocq/proof.go:101-179: makeStep", "src/Mods/rocq/proof.go:325-359: getRealConstantName, findInConstants", "src/Mods/rocq/context.go:181-251: lemmas"]}
{"id": "C79", "title": "Substitutions reported by the SAT-based equality module solve a goal", "statement": "Whenever the SAT-based equality module answers that an equality problem has a solution and reports a substitution, the equations of some goal of the problem all follow from the assumed equations together with the bindings of the substitution.", "quantifier": "every list of equations and of goals, every order in which the classes are enumerated, every satisfying assignment the SAT solver may answer with", "why_tests_cant": "Which of many assignments the solver answers with, and in which order maps are iterated over, differs between runs; a clause that is missing only matters when the solver happens to use the freedom it leaves.", "anchors": ["src/Mods/equality/sateq/satbuilder.go:60-111: buildSAT", "src/Mods/equality/sateq/satbuilder.go:195-220: 𝜓Constraint", "src/Mods/equality/sateq/satbuilder.go:222-235: buildGoalConstraints", "src/Mods/equality/sateq/problem.go:224-262: Solve", "src/Mods/equality/sateq/subsgatherer.go:41-100: gatherSubs"]}
{"id": "C80", "title": "The substitution read off a SAT assignment can be computed and realised", "statement": "For every satisfying assignment and every choice made when it is read off, the SAT-based equality module computes the reported substitution without panic and without endless recursion, and there are terms for the metavariables that satisfy all its bindings at once.", "quantifier": "every problem with consistent arities, every enumeration of the classes, every satisfying assignment, every choice of representatives", "why_tests_cant": "The recursion of the translation ends only because the clauses make an order on classes acyclic for every assignment; a cyclic one would show only if the solver returned it.", "anchors": ["src/Mods/equality/sateq/subsgatherer.go:48-58: getSubstitution", "src/Mods/equality/sateq/subsgatherer.go:60-75: getTranslation", "src/Mods/equality/sateq/subsgatherer.go:77-100: translate, translateSub", "src/Mods/equality/sateq/satbuilder.go:237-302: acyclicity constraints"]}
{"id": "C81", "title": "The SAT-based equality module finds solutions among the terms of the problem", "statement": "If some bindings of metavariables of an equality problem to terms occurring in it are satisfied by terms and make a goal follow from the assumed equations, the SAT-based equality module answers that the problem has a solution.", "quantifier": "every list of equations and of goals with consistent arities, every such set of bindings, every enumeration of the classes", "why_tests_cant": "It says that the number of rounds is always enough and that no clause excludes a solution; a missed solution is a negative answer, which a test can only tell from a correct one for problems solved by hand.", "anchors": ["src/Mods/equality/sateq/satbuilder.go:79-80: numberOfPairs", "src/Mods/equality/sateq/satbuilder.go:113-302: all constraints", "src/Mods/equality/sateq/problem.go:224-262: Solve"]}
{"id": "C82", "title": "The TPTP derivation printed for a proof is correct", "statement": "For each problem with a conjecture in which no symbol is named like the constants the output introduces, and each sequent proof of it, the TPTP output prints a derivation; each of its steps is an instance of the rule that it names, with the premises that it names, and it ends with the conjecture derived from the axioms.", "quantifier": "every list of axioms, conjecture and sequent proof of them, every naming of the introduced constants", "why_tests_cant": "The output is a text that only an external checker reads; which proofs are printed with a wrong sequent, index, term or constant depends on how rules follow one another in proofs of any depth.", "anchors": ["src/Mods/tptp/proof.go:65-84: makeTptpProofFromGS3", "src/Mods/tptp/proof.go:88-487: followProofSteps, makeStep and the steps", "src/Mods/tptp/proof.go:492-595: processMainFormula, performFirstStep, performCutAxiomStep", "src/Mods/tptp/proof.go:637-699: updateSkolemSymbol, createNewConstant, getCreatedFromOriginal"]}
{"id": "C83", "title": "The Lambdapi term printed for a proof proves the printed theorem", "statement": "For each problem with a conjecture and each sequent proof of it, the Lambdapi output prints a theorem and a term whose type, with the rules declared in LambdaPi/GS3.lp, is that theorem; the theorem says that the conjecture follows from the axioms.", "quantifier": "every list of axioms, conjecture and sequent proof", "why_tests_cant": "The names of hypotheses come from one global map shared by all branches; that each name is bound in the branch where it is used, with the right formula, depends on the whole proof, and only an external checker reads the text.", "anchors": ["src/Mods/lambdapi/proof.go:44-58: makeLambdaPiProofFromGS3", "src/Mods/lambdapi/proof.go:60-355: makeProofStep and the steps", "src/Mods/lambdapi/proof.go:357-387: processMainFormula, makeTheorem, makeImpChain", "src/Mods/lambdapi/utils.go:40-67: the map of names", "LambdaPi/GS3.lp:31-86: the rules"]}
{"id": "C84", "title": "The tokens read from a file are the ones written in it", "statement": "For each way of writing a list of tokens of the TPTP grammar as a text - with any white space and comments between them, and white space or a comment wherever two tokens would otherwise run together - the lexer reads exactly those tokens, then the end of the file.", "quantifier": "every list of tokens, every spelling of them, all white space and comments between them", "why_tests_cant": "There are infinitely many texts for each list of tokens; a statement that is silently dropped leaves a problem that still runs, with another answer, so that a test only shows it if someone compares the problem read with the file.", "anchors": ["src/Parser/tptp_lex.go:790-829: Lex", "src/Parser/tptp_lex.go:100-154: white space and comments", "src/Parser/tptp_lex.go:161-331: keywords, punctuation, operators, predicates", "src/Parser/tptp_lex.go:352-497: quoted words, words, special characters", "src/Parser/tptp_lex.go:503-779: numbers", "src/Parser/tptp_lex.go:835-851: ParseTPTPFile"]}
{"id": "C85", "title": "A formula of a file has one reading, with the scope given by the grammar", "statement": "For each list of tokens the grammar of FOF formulas and files gives at most one formula (file). A formula written with parentheses around its binary connectives is read with its meaning in every structure. A quantifier or negation reaches over the next unit formula only, `&` and `|` associate to the left, and different binary connectives cannot be mixed without parentheses.", "quantifier": "every list of tokens, every formula, every structure", "why_tests_cant": "A grammar with an ambiguity still gives some formula for each test; that there is no second one is a statement about all derivations of all token lists.", "anchors": ["src/Parser/tptp_parse.y:358-439: fof formulas", "src/Parser/tptp_parse.y:441-504: terms", "src/Parser/tptp_parse.y:130-146: files and annotated formulas", "src/Parser/tptp_parse.y:509-520: include"]}
{"id": "C86", "title": "Distinct objects are constants of their own, different from each other", "statement": "A distinct object `\"a\"` is read as another term than the constant `a`, and what is read for `\"a\" != \"b\"` holds in every structure with equality, as src/Parser/tptp_lex.go:347-351 says.", "quantifier": "every pair of distinct objects, every structure", "why_tests_cant": "The program gives an answer for each problem; that a distinct object and a constant become the same symbol is seen only with a problem whose answer depends on it.", "anchors": ["src/Parser/tptp_parse.y:502-504: defined_term", "src/Parser/psyntax.go:206-212: MkFunConst, MkDefinedConst", "src/Parser/tptp_lex.go:343-351: distinct objects"]}
{"id": "C87", "title": "The problem stated by the TPTP output is the problem that was read", "statement": "The axioms and the conjecture that begin a TPTP proof are a text that the lexer and the grammar read in exactly one way, as statements with the same roles and, in every interpretation, the same meaning as the formulas of the prover.", "quantifier": "every list of axioms, conjecture, problem name and interpretation", "why_tests_cant": "The printer drops parentheses by counting them in the text, and names are printed as they are; whether the text still has the meaning of the formula depends on the nesting and on all characters of all names, for infinitely many formulas.", "anchors": ["src/Mods/tptp/proof.go:511-522: makeTheorem", "src/AST/printers.go:44-72: RemoveSuperfluousParenthesesAction", "src/AST/modular-printing.go:169-215: surrounding, OnFunctionalArgs", "src/AST/quantifiers.go:83-96: ToString of quantifiers", "src/AST/formsDef.go:254-1040: ToString of formulas"]}
{"id": "C88", "title": "The verdict printed for the text of a problem is right", "statement": "Whatever the program prints for the text of a problem, with the files it includes, is the verdict the problem deserves: `VALID` exactly when no structure makes all axioms true and the conjecture false, with the SZS status Theorem or CounterSatisfiable if there is a conjecture, Unsatisfiable or Satisfiable otherwise; and for problems without quantifiers and equality it does print one.", "quantifier": "every text, every system of files, every choice of options and every schedule of the goroutines in every round", "why_tests_cant": "Tests run some problems under some schedules; the claim goes through the lexer, the grammar, the elaboration, the rounds and the concurrent search, for all texts and all schedules.", "anchors": ["src/main.go:74-103: main", "src/main.go:128-180: presearchLoader", "src/main.go:228-332: StatementListToFormula", "src/Search/search.go:78-114: Search, PrintSearchResult", "src/Search/destructive.go:82-154: rounds"]}
{"id": "C89", "title": "The bound of the first round is the one given, or the number of quantifiers", "statement": "The first round of the search runs with the bound given by the option `-l`; if this option is not used, with the number of quantifiers written in the files of the problem.", "quantifier": "every text, every system of files, every bound", "why_tests_cant": "The counter is a global variable of the lexer that goes through all included files, and each include may set the bound again; the claim is about all nestings of includes.", "anchors": ["src/main.go:144-165: presearchLoader", "src/main.go:244-275: includes in StatementListToFormula", "src/Parser/tptp_lex.go:230-250,834-851: quantifiersCounter, ParseTPTPFile"]}
{"id": "C90", "title": "The declarations before the Rocq theorem make its statement well typed", "statement": "With `-context`, the lines `Parameter name : type.` printed before the Rocq theorem declare each symbol of the statement exactly once, under a name Rocq accepts, with a type that fits all its uses, and declare nothing else.", "quantifier": "every statement, every set of declared types, every order of going through the map of type names", "why_tests_cant": "Duplicates are found by comparing printed lines while going through the formula; whether the lines fit all uses of a symbol is a claim about all formulas and all names.", "anchors": ["src/Mods/rocq/context.go:97-171: getContextFromFormula, getContextFromTerm, clean", "src/Mods/rocq/output.go:100-128: RocqPrinterAction", "src/AST/ty-syntax.go:493-510: default types"]}
{"id": "C91", "title": "In assisted mode the user is asked for the steps, and they are done as chosen", "statement": "With `-assisted`, the program asks the user for a state, a rule and a formula at each step until there is a verdict; the rule is applied to the formula that was chosen, and the substitution that was chosen is the one that is applied.", "quantifier": "every formula, every state of the search, every choice of the user and every schedule of the goroutines", "why_tests_cant": "The dialogue depends on the schedule of the goroutines and on a counter they share; the claim is about all states and all choices the user may make.", "anchors": ["src/Mods/assisted/rules.go:45-268: ApplyRulesAssisted and the rules", "src/Mods/assisted/assistant.go:97-165: InitAssisted, StartAssistant, doOneAssistantStep", "src/Mods/assisted/assistant.go:360-392: selectSubstitution", "src/Glob/syncCounter.go:39-75: SyncCounter", "src/main.go:107-126: startSearch"]}
{"id": "C92", "title": "The Lambdapi file declares the symbols of the problem with their types", "statement": "For each untyped problem, the lines printed before the Lambdapi theorem declare each predicate, function and metavariable that is used, with a type, once.", "quantifier": "every formula and every list of metavariables", "why_tests_cant": "The declarations depend on all symbols of a problem of any size and on how often each occurs.", "anchors": ["src/Mods/lambdapi/context.go:44-67: makeContextIfNeeded", "src/Mods/lambdapi/context.go:174-207: getContextFromFormula", "src/Mods/lambdapi/context.go:242-252: getContextFromTerm", "src/Mods/lambdapi/context.go:272-278: contextualizeMetas", "src/Mods/lambdapi/output.go:94-97: mapDefault"]}
{"id": "C93", "title": "The proof that the main search hands to the output is a closed tableau for the formula", "statement": "When the search ends with the answer that the formula is closed, the list of steps it hands to the output modules is a tableau for the formula: each step is an application of its rule to formulas of its branch, each alternative of a disjunction has a proof, and each branch ends with a formula that closes it, for some value of the metavariables.", "quantifier": "every formula, every limit and every schedule of the processes that ends with the answer closed", "why_tests_cant": "The proof is put together from the answers of concurrent processes, over rounds in which substitutions are tried, withdrawn and sent again; whether a step is lost depends on the schedule and on formulas of any shape.", "anchors": ["src/Search/child_management.go:358-378: updateProof", "src/Search/destructive.go:679-943: selectChildren", "src/Search/destructive.go:503-641: waitFather", "src/Search/destructive.go:1061-1228: ManageClosureRule", "src/Search/state.go:195-244: SetProof, SetCurrentProof", "src/Search/proof.go:407-432: ApplySubstitutionOnProofList"]}
{"id": "C94", "title": "A run prints the verdict and, for a closed tableau, the text of the proof unchanged", "statement": "Whatever the search (main or `-incr`), the options and the outputs chosen, a run that ends writes the verdict it deserves once and, when the tableau is closed and a proof is asked for, the text each output makes of the proof, as it is, between the two proof lines; otherwise no proof lines.", "quantifier": "every result of the rounds of the search, every combination of the options, every list of outputs and every proof", "why_tests_cant": "The text of a proof contains names chosen by the user, which the printing function may read as a format; the claim is about all texts and all ends of a search.", "anchors": ["src/Search/print_proof.go:58-88: PrintProof, printProofWithProofStruct", "src/Search/destructive.go:82-154: Search, doOneStep", "src/Search/incremental/search.go:24-38: Search, handleSearchResults", "src/Search/proof.go:347-383: ToText, ProofStructListToText"]}
{"id": "C95", "title": "The proof that the incremental search hands to the output is a closed tableau for the formula", "statement": "When the incremental search ends with a closed tree, the list of steps it hands to the output modules is a tableau for the formula in which each step is an application of its rule and each branch ends with a formula that closes it, for some value of the metavariables.", "quantifier": "every formula, every faithful answer of the index and every schedule of the nodes", "why_tests_cant": "The proof is put together from what each node remembers of its last rule, over schedules of any length, with the first of many substitutions.", "anchors": ["src/Search/incremental/searchNode.go:194-268: getResult, getProofStruct, getResultFormulas", "src/Search/incremental/rulesManager.go:84-207: applyCorrectRule, applyNonClosureRule, tryClosureRules", "src/Search/incremental/substitutionList.go:59-81: InstanciateAny"]}
{"id": "C96", "title": "An include statement reads the file that is meant", "statement": "Each include statement of a problem, also of an included file, reads the file TPTP says: for an absolute name that file, for another name the one with this name seen from the directory of the including file, else the one seen from the directory of the variable `TPTP`.", "quantifier": "every file system, every directory the program is called in, every value of TPTP and every chain of includes", "why_tests_cant": "Which file is read depends on the files there are, the directory the program is called in and the whole chain of includes, of any depth.", "anchors": ["src/main.go:377-403: getFile", "src/main.go:246-273: StatementListToFormula, the include case", "src/main.go:128-182: presearchLoader"]}
{"id": "C97", "title": "The outputs are given exactly the metavariables left in the proof", "statement": "For each proof handed to the outputs, the list of metavariables that comes with it (which the Rocq and Lambdapi outputs declare) has each metavariable occurring in a formula of the proof, at any depth, once, and no other.", "quantifier": "every proof, of any size and depth, of both searches", "why_tests_cant": "The list is collected over trees of any shape through sets whose behaviour depends on the order of insertion.", "anchors": ["src/Search/proof.go:385-404: RetrieveUninstantiatedMetaFromProof", "src/Search/destructive.go:140-148: doOneStep", "src/Search/incremental/search.go:32-38: handleSearchResults"]}
{"id": "C98", "title": "The file of exchanges is complete, readable JSON", "statement": "With -exchanges, after each round of the search the file (with the closing bracket that the visualization tool adds) is a JSON array with one record for each reported event of the round, in order: the process and its father by name, the number of the record among those of the process counted from zero, and the texts of its formulas, metavariables and substitutions exactly as they are, whatever characters they contain.", "quantifier": "every number of rounds, every sequence of events, all texts, with and without a debugger, whether or not the directory of the file exists", "why_tests_cant": "The order and number of events differ from run to run, texts are arbitrary, and the fields are only compared by a separate tool.", "anchors": ["src/Search/exchanges.go:79-151: ResetExchangesFile, makeJsonExchanges, WriteExchanges", "src/Glob/helper.go:116-127: GetGID", "src/Search/destructive.go:98-123: doOneStep"]}
{"id": "C99", "title": "In assisted mode the step that is named as Goéland's choice is the one the search would take", "statement": "For the state that is shown, the line 'Goéland would apply …' names the rule and the formula that the normal search would use for this state; if no step is named, the search would give up the branch; the closure rule is named exactly if a literal of the branch closes it, with a substitution that does so.", "quantifier": "every state of the search", "why_tests_cant": "The choice is written twice in the code, once for the search and once for the display; agreement is a claim about all states, with any number of formulas of every kind, any counters of reintroduction and any number of steps left.", "anchors": ["src/Mods/assisted/assistant.go:214-275: printGoelandChoice, chooseReintroRule", "src/Search/destructive.go:1231-1272: applyRules", "src/Search/state.go:445-462: CanReintroduce, CanApplyGammaRule", "src/Core/meta_gen.go:120-169: chooseLessReintroducedMeta, ReintroduceMeta"]}
{"id": "C100", "title": "Every option on the command line has its documented effect, whichever others are given", "statement": "The options before the problem file can be given in any order and in any of the usual spellings; each has the effect described in its help text and USAGE.md, unless the combination is documented not to work or a message says so; without -noeq equality is treated; the problem that is read is the file given.", "quantifier": "every set of options with any values, in any order and spelling", "why_tests_cant": "There are more than 2^37 combinations of options; the claim is that no option silently switches off another one.", "anchors": ["src/options.go:90-428: initOpts, buildOptions", "src/Mods/dmt/dmt.go:58-115: InitPlugin, parsePluginOptions", "src/main.go:74-131: main, startSearch, presearchLoader", "src/Search/print_proof.go:54-71: AddPrintProofAlgorithm, PrintProof", "src/Search/incremental/search.go:24-30: Search", "USAGE.md"]}
{"id": "C101", "title": "With -incr and -proof a proof is shown exactly for problems that follow", "statement": "When the program is run with -incr and -proof on the text of a problem and the search ends, a proof with some text is printed exactly if the conjecture follows from the axioms (with equality read as equality).", "quantifier": "every text of a problem with its included files, every schedule of the parallel search, every order in which the index answers, with or without -dmt, for every output of proofs", "why_tests_cant": "The claim is about all problems and all schedules; soundness and completeness are about all structures.", "anchors": ["src/Search/incremental/search.go:24-38: Search, handleSearchResults", "src/Search/incremental/searchNode.go:194-268: getResult", "src/main.go:74-131: main, startSearch", "src/main.go:338-358: doAxiomStatement", "src/Search/print_proof.go:58-88: PrintProof"]}
{"id": "C102", "title": "The proof found for the text of a problem can be checked", "statement": "When the program finds a proof for the text of a problem, with the main or the incremental search, the sequent proof made from it by the GS3 module is a refutation of a formula that states that the axioms hold and the conjecture does not; in particular the translation does not fail. Whenever the program prints that the conjecture is a theorem, such a proof has been handed on.", "quantifier": "every text of a problem with its included files, every schedule of the parallel search, every order in which the index answers, all options of the translation", "why_tests_cant": "The claim joins reading, search and translation for all problems and all schedules; the meaning of the formula is about all structures.", "anchors": ["src/main.go:74-131: main, startSearch", "src/Search/destructive.go:1412-1427: manageResult", "src/Search/incremental/search.go:24-38: Search, handleSearchResults", "src/Mods/gs3/proof.go:113-127: MakeGS3Proof"]}
{"id": "C103", "title": "Merging substitutions of types and terms respects type arguments", "statement": "A term whose type arguments were turned into ordinary arguments for unification gets the same type arguments back. Merging two substitutions of type and term metavariables whose values have no metavariables succeeds only if one instantiation satisfies both; and two substitutions that an instantiation satisfies are not refused.", "quantifier": "all terms, all numbers of type arguments of the symbols, all substitutions of types and terms", "why_tests_cant": "The terms, their nesting and the substitutions are unbounded; the merge runs the unification machine on compiled terms.", "anchors": ["src/Unif/matching_substitutions.go:80-128: translateFromSubst", "src/Unif/matching_substitutions.go:271-299: translateToSubst, MergeMixedSubstitutions", "src/Unif/parsing.go:147-164: getFunctionalArguments", "src/Unif/parsing.go:222-229: parseTerms", "src/Unif/matching.go:272-282: down"]}
