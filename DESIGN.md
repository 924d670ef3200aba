# Formal model of Goéland: design

The repository models the core of the Goéland tableau prover (`/repo/src`, Go) in
Lean 4 and proves the properties listed in `properties.jsonl`.

## Trusted base

* Lean 4.33.0's kernel. Theorems depend at most on `propext`, `Classical.choice`
  and `Quot.sound` (checked with `#print axioms`). No own axioms, no `sorry`, no
  `native_decide`, no `bv_decide`.
* The hand translation from Go to Lean. Every definition of the model cites the Go
  file and lines it models and says where it simplifies.
* Go integers are modelled by `Nat`/`Int` (no overflow). Mutation through a pointer
  is modelled by returning the new value; where aliasing matters (C41, C46, C06) an explicit
  heap is modelled. Goroutines and channels are modelled by explicit
  interleaving steps or by an arbitrary permutation of answers.
* The FOF grammar is modelled by its rules (C85); that the automaton made by `goyacc` accepts the language of the rules
  is trusted.
* Not modelled: the TFF part of the grammar, the text of Rocq/Lambdapi/TPTP proof output except the statements at its
  start (C87; the GS3 tree that they print is, C66–C67, the tactics of the Rocq script, C78, the lines of the TPTP output, C82, and the Lambdapi terms, C83), command line handling, timing, the memory model of
  Go below the granularity of the modelled steps.
* What `fmt.Printf` writes for a format without arguments (C94) and what the package `path` does (C96), and how `encoding/json` writes strings and objects (C98), is taken from the documentation of Go.
* The SAT solver `gini` (C79–C81) is trusted to answer with an assignment that satisfies
  the clauses it was given, or that there is none.

## Behaviours of the code found while modelling

Where a property is false of the code, a theorem with `violated` in its name gives the witness; the row of the
property says which. The following were read off the code and are not (or only in part) the subject of a theorem.

* Search: `chooseSubstitution` never looks at the last candidate; `backtrack` keeps an old current substitution;
  `ApplyClosureRules` leaves its result true once set; `selectChildren` resets the common substitutions (C33);
  `proof_tab[index_children]` panics if the node is not found; `ProofStruct.Copy` shares `Result_formulas`;
  `sendForbiddenToChildren` sends its list uncopied; in one-step mode "Satisfiable" is printed though only the limit
  was reached; with rewriting `State.Copy` builds `TreeNeg` from the positive tree (src/Search/state.go:430).
* Unification: a predicate without arguments unifies with one that has some; terms of different arities unify up to the
  shorter one; three metavariables in a cycle do not unify; polymorphic merges fail; the code-tree insertion is wrong
  if one sequence is a prefix of another.
* Terms: `TermForm.GetMetas` gives only top-level metavariables; the result of `newMetas.Add` is dropped
  (src/AST/formsDef.go:76); `replaceTermInTermList` compares old with new for metavariables; bound type variables are
  compared by name; `MakerId` looks up and inserts under two locks (C12).
* Equality: the first goal list may be empty and `epml[0][0]` panics; a branch without equality is never tried; the
  second literal may have fewer arguments and `At(i)` panics; type arguments are moved into the arguments; a found
  answer with no substitution stops the other children; a killed process stays blocked on its father's channel.
* SAT-based equality: `termRecord.tyArgs` is never set; `tr2.args[i]` is out of range for different arities; an
  empty goal clause is dropped; ground problems never reach the SAT solver (C81).
* Typing and reading: the expected type of a function application is ignored; `Con` is changed in place;
  `typecheckType` accepts each declared symbol; types declared in an included file are unknown in the main file (C44);
  arguments of compound type arguments are dropped; an unknown role warns and then is fatal.
* Rewriting: `registeredAxioms` grows also when registration answers false; metavariables of rules are never renamed
  (C68); a forgotten process in `manageBacktrackForDMT` (C57).
* Incremental search: `SubList.Equals` is true for equal lengths; `treeImpossible` is global and never reset; an empty
  disjunction gives no branch; type metavariables all have index 42 there.
* GS3: `getFirstRuleAppliedAfter` can read one past the end; `getFormsToWeaken` tests `rule` where it loops over `r`;
  `removeFromDeltaHisto` changes the list it ranges over; unknown rule names become `AX`; weakening steps at the
  start of a child proof are lost; the result of `RemoveAt` is dropped (src/Mods/gs3/proof.go:483).
* Outputs: `SetContextEnabled` ignores its argument (rocq, lambdapi); `GetRegisteredAxioms().Append` changes the
  registered axioms; in the TPTP output the constants created are global over the branches.
* Lexer (C84): an unknown character ends the file without a message if a statement is complete; so does an accented
  letter after a space in a `%` comment; `![X]` is a syntax error, `! [X]` is not; the last `.` is lost if no line end
  follows; a tab ends a comment; `fof (` is no keyword; `'\''` becomes character 131; the empty file panics; `+5` is
  two tokens; `"cat"` and `cat` become the same constant.
* Grammar (C86): `"a"` and `a` are one constant, so `a = "a"` is proved, and `"a" != "b"` is not an axiom. The
  selection of an `include` is dropped: all formulas of the file are used (src/Parser/tptp_parse.y:509-516).
* Printing (C87): `! [X]: p(X) & q(X)` is printed for `∀X (p(X) ∧ q(X))`; names are printed without quotes (`'A'` becomes a
  variable, `'a b'` two words); the name of the conjecture is not quoted (files such as `SYN001-1.p`); types of variables
  are not printed; type arguments are printed with ` ; `, which ends the file for the lexer; an empty connective is
  printed as nothing; the option `-pretty` changes the connectives in the TPTP output (src/options.go:209).
* Options (C88, C89): the bound given with `-l` is not used if a file with a formula is included; with a bound given, a
  problem without quantifiers that is satisfiable is searched for ever (`C88_limit_never`). A problem with a quantifier that
  does not follow gets no verdict without `-one_step`, even if each round has finished without using the bound
  (`C88_delta_never`): `! [X]: p(X)` is searched for ever. `presearchLoader` says that the
  plugin for equality is disabled when no file has `=` (src/main.go:167-170), but nothing asks for this flag: equality
  reasoning runs unless `-noeq` is given; a problem with `!=` only gets the message, too. The non-destructive search is
  disabled: `NewNonDestructiveSearch` ends the program. `-quoted_pred` (src/options.go:398-403) quotes names beginning with a capital in
  the output only.
* The Rocq file with `-context` (src/Mods/rocq/context.go:97-159) declares a name twice if it is used with two numbers of
  arguments or both as a predicate and as a function (Rocq refuses the second declaration), does not rename symbols
  whose name is a keyword of Rocq (such as `in`), never declares the types of a typed problem though the declarations
  use them, and writes `goeland_Unt` for `$int` (src/Mods/rocq/output.go:103-114 replaces `$i` inside it) (C90).
* Assisted mode (C91): `assistedCounter` (src/Mods/assisted/assistant.go:97-105) has no function to call when it gets to 0 (src/Glob/syncCounter.go:61-67), so that
  the program crashes before the user is asked for the first time; and only an answer of the user would wake the assistant. `applyBetaRule` (src/Mods/assisted/rules.go:145-147)
  ignores the formula chosen, `applyGammaRule` (237) decrements the counter where the others increment it, the number of a
  substitution is looked up in another list than the one shown (113-114), and a formula with a large counter is not reintroduced when chosen.
* Lambdapi declarations (C92): symbols are declared without a type (src/Mods/lambdapi/context.go:200, 246), and the metavariables in one line
  `symbol X Y : τ (ι);` (272-278), in which Lambdapi takes all but the first as parameters.
* Wrong verdicts of the program: `? [X,Z]: (p(X,g(Z),Z) => p(g(a),X,f(X,X)))` is printed as a theorem (`C88_violated_index`): the two literals share the
  metavariable of `X`, and `computeSubstitutions` (src/Unif/substitutions_tree.go:52-116) loses one of its bindings (C25, C30). The search has one
  branch; `C65_late_index_partial` shows that with an index as C30 asks for such formulas are not closed wrongly.
* The proof of the main search (C93): `proof_tab` is new in each call of `selectChildren` (src/Search/destructive.go:681), so that a child that closed by itself in an
  earlier round has no proof when the father tries another substitution; and a child that is given a substitution it has sent before answers with the
  proof it has at that moment (src/Search/destructive.go:525-541), which may be that of a substitution given in between. The verdict is right, the proof
  printed is not one, and the GS3 module makes no refutation of it (`C93_violated_gone`, `C93_violated_stale`, `C93_violated_gs3`).
* What is printed (C94): with `-incr` no verdict is ever printed, and with `-proof` the proof lines are printed also when the tree is open, with
  an empty proof, for which the TPTP, Rocq and Lambdapi outputs end with an error (src/Search/incremental/search.go:24-38, src/Mods/tptp/output.go:56-71).
  The text of a proof is the format of `fmt.Printf` (src/Search/print_proof.go:86), so that a name with `%` is printed wrongly.
* The proof of the incremental search (C95): a node remembers the last literal for which the index had an answer (src/Search/incremental/rulesManager.go:136-207),
  and the proof is made with the first substitution (searchNode.go:199-205); for `∀X (¬p(X) ∧ ¬q(X)) ∧ p(a) ∧ q(b)` it replaces `X` by `a` and closes by `q(b)`.
* Includes (C96): a name is first looked up in the directory the program is called in (src/main.go:382-385), so that a file there hides the one beside
  the problem; the directory for the includes of an included file is made from the names and not from the file that was found (src/main.go:264), so that
  library files cannot include files beside them, and below an absolute name a wrong file may be read.
* The incremental search hands the empty set of metavariables to the outputs (src/Search/incremental/search.go:35), also when its proof has some (C97).
* Gamma rule (C21): the instance of `![A: $tType, X: A] : q(A, X)` is `![X: A] : q(A', X)`; the type of `X` keeps the type variable `A`, which nothing binds any more (src/Core/instanciation.go:85-110 replaces in the body only, not in the types of the variables left in the list).
* Exchanges (C98): `-exchanges` crashes at the first record unless `../../visualization/json` exists beside the executable's directory (`os.Stat` gives nil, src/Search/exchanges.go:139-140); in the repository the directory is `devtools/visualization/json`. Without `-debug` `GetGID` is always 0, so all processes have the same name; the numbers of versions are not reset between rounds.
* Assisted mode, the step that is named: `printGoelandChoice` calls `ToString` on a nil formula and crashes if steps are left, no rule applies and there is nothing to reintroduce (already for the problem `p`), as it does not check `len(MetaGen) > 0` like `applyRules`; if no steps are left and there are gamma formulas, nothing is named while the search goes on with them, as it asks `CanApplyGammaRule` where `applyRules` does not (C99).
* Options (C100): `-incr` reads none of the options for rounds (`-one_step`, `-l`, `-vec`), `-exchanges`, `-completeness` and equality; with `-dmt` the axioms made rewrite rules are taken
  out of the formula (src/main.go:345-355) but the incremental search never rewrites, so they are lost; equality is not treated at all with `-incr`, and no message says so. `-preinner` switches off `-inner`. After
  `-orocq` the proofs of `-otptp`, `-osctptp` and `-olp` are printed with the connectives of Rocq (src/Mods/rocq/output.go:63-66), and `-osctptp` makes the proof of `-otptp` SC-TPTP too. `-ari` and
  `-type_proof` set variables nothing reads. USAGE.md lists `-no_id`, which is not an option, and `-nd` only prints a message.
* `-incr` on texts (C101): without quantifiers and equality the proof is shown exactly if the conjecture follows. Otherwise no proof is shown for `a=a`, nor for `p(f(f(a)))` from `p(a)` and
  `! [X]:(p(X)=>p(f(X)))` (one instance only), nor with `-dmt` for `p` from `p<=>(q|~q)` (the axiom is taken out of the formula and never used); and a proof is shown of
  `? [X,Y,Z,W]:((p(X,f(Y))|q(Y,f(X)))=>(p(Z,Z)|q(W,W)))`, which is not a theorem (the branches are closed by substitutions that do not agree).
* Proofs for texts (C102): without quantifiers and equality the sequent proof that the GS3 module makes refutes the problem, with either search. Otherwise a proof is handed on for two texts whose conjecture does not follow: one because a variable is renamed to a name in use (C43), one because branches are closed one by one with `-incr` (C64). A third text follows and is found, but the GS3 module makes no refutation, because a quantified variable does not occur (`C102_violated_idle`, C67).
* Type arguments of merged substitutions: `MergeMixedSubstitutions` (src/Unif/matching_substitutions.go:286-299) merges terms whose type arguments have been restored. The compiler takes type arguments into account only for functions with ordinary arguments (src/Unif/parsing.go:222-229), and the machine goes down into the ordinary arguments only (src/Unif/matching.go:272-282). So `X ↦ c<A>` and `X ↦ c<B>` are merged, and `X ↦ f<A>(Y)` and `X ↦ f<A>(a)` are refused. Metavariables in type arguments are not replaced (src/Unif/substitutions_type.go:313-318): merging `T ↦ A` and `X ↦ f<T>(a)` leaves `T` in the value of `X` (C103).
* Libraries: `Glob.NewSet` keeps duplicates; `UnionIntList` shares its argument; `Glob.List.RemoveAll` skips elements (C09).

## Plan per property

| id | what is modelled | how it is proved |
|----|------------------|------------------|
| C01 | AVL tree of `Lib/sets.go`, function by function | search-tree invariant by induction on operation histories, refinement to a predicate |
| C02 | the bulk operations of the same file | membership characterisation from C01 lemmas |
| C03 | `Elements`, `Cardinal`, `IsEmpty` | `Nodup` and membership from the invariant |
| C04 | `Filter` | false in the code: negation proved with a witness, partial theorem (subset) |
| C05 | stored heights, rotations | AVL invariant for insertion histories; negation witness for removals |
| C06 | `nodeCpy` (drops heights) | membership preserved; balance negation witness |
| C07 | fold over an arbitrary permutation of answers | permutation induction |
| C08 | `Lib/list.go` | structural induction |
| C09 | index-stepping loop of `Glob/list.go` with an explicit panic result | negation witnesses, partial: at most one occurrence |
| C10 | threads with atomic steps between lock operations | multiset invariant on all reachable states; negation witness schedule for mutual exclusion |
| C11 | terms/formulas with index-based equality | structural induction |
| C12 | counters and maps with interleaved steps | invariant on reachable states; negation witness for the check-then-act race |
| C13 | term substitution | structural induction, semantic substitution lemma |
| C14 | first-occurrence replacement | negation witness, partial: at most one occurrence per application |
| C15 | negation stripping | structural induction on formulas against a semantics |
| C16 | parser constructors of the derived connectives, pretyping, elaboration of types, terms and formulas with the symbol tables, flattening (`Verif.Engine.Elab`) | induction on nesting against a semantics of written formulas by names; totality and exact models for FOF; negation witness: type variables are not resolved by scope |
| C17 | renaming with a fresh counter | freshness invariant, semantic equivalence |
| C18 | rule classification | case analysis, size measure |
| C19–C22 | rule application functions | against first-order semantics. C21 and C22 for many sorts and quantified type variables: `Verif/Typing/TypeRules.lean`; both fail there (`C21_violated`, `C22_violated_dependence`, `C22_violated_same`), and hold where the violations are excluded (`C21_sorted_partial` for all many-sorted structures; `C21_one_sorted_partial`, `C22_types_partial` where types do not tell elements apart) |
| C23 | expansion trees built from the modelled rules | induction on the tree, Skolem model construction. With equality (`Verif/Search/TableauEq.lean`): branches closed by the congruence of their equations, or by the answers of the equality module in the cases of C75. `Verif/Whole/Proof.lean`: composed with the lexer, the grammar and the elaboration (`C23_text_partial`) |
| C24–C28 | `Unif` substitutions with fuel where Go recurses | invariants of the elimination loop, induction on fuel |
| C26 | same | false in the code (cycle of three metavariables): witness; partial |
| C29, C30 | code tree, machine step function | induction on insertion history, refinement to a linear scan; ground queries and ground stored formulas are answered exactly |
| C31 | reintroduction counters | invariant over runs |
| C32 | removal from candidate list | permutation lemma |
| C33 | `selectChildren` fold over arriving answers | negation witness for three children, partial for at most two |
| C34 | `closeChildren` with n children under any schedule; tree of processes for the whole search | progress measure for one call; from every reachable state of the tree a continuation to the end exists |
| C35 | verdict table | case analysis |
| C36 | types, `instantiateType`, `GetArgsTy`, `GetOutTy`, `SubstTy` (`Verif.Typing.Inst`) | instantiation computes exactly the instance (structural induction); negation witnesses for metavariable types and constants |
| C37 | the pool of type checking tasks with contexts as sets in memory, every order of steps (`Verif.Typing.Check`) | invariant over every schedule: arities and variable arguments of accepted formulas are right, for closed formulas with distinct bound names; negation witnesses: result types are not compared; a verdict that depends on the schedule |
| C38 | `compareLPO`, `CompareWith` | the code decides a textbook path ordering (induction on fuel); order laws by induction on sizes; no infinite descent over finitely many symbols (`Verif.Equality.LPOWf`); terms with type arguments reduced to terms without; negation witness for totality: type arguments are ignored |
| C39 | congruence closure tables | soundness invariant; negation witness for completeness |
| C40 | union-find on a heap of parent pointers | rank argument, refinement to equivalence closure |
| C41 | shallow copy on the same heap | negation witness, partial |
| C42 | registration of axioms as rewrite rules and the instantiation of a rule (`Verif.Mods.Dmt`, `Verif.Mods.DmtProps`) | every rule follows from the axiom, and a consumed equivalence or atom from its rules, by case analysis over the shapes; partial for instances: false when a substituted metavariable occurs twice in a rule (witness), proved for linear rules |
| C43, C44 | elaboration of statements, the loop of `StatementListToFormula` with renaming of every formula, end of `presearchLoader` (`Verif.Engine.Problem`); files are trees | induction on the nesting of includes with an invariant of the symbol tables; negation witnesses for includes, selections, rewriting and capture; the formula searched is closed with different variables (`Verif/Whole/Closed.lean`) |
| C45 | tables of pairs of cleaned and actual substitutions; merging of two substitutions is that of `Verif.Unif` | exact description of recording and pruning; merging: negation witness (three branches), soundness for classes where merging two substitutions is sound (ground: `Verif.Unif.Ground`) |
| C46 | `State.Copy` | heap model of a branch and its copy; isolation invariant |
| C47 | Skolem symbol generation | freshness invariant |
| C48 | search loop | induction on rounds |
| C49 | rules and rule managers of the incremental search (`Verif/Search/Incremental.lean`) | the rules agree with those of C19/C20; induction on the weight of the manager: expansion ends and the formula is equivalent to the disjunction of its leaves |
| C50 | substitutions of the incremental search and their combination over all children (`Verif/Search/IncrSubs.lean`) | structural induction: the combinations are exactly the unions of one substitution of each child that agree on common metavariables |
| C51 | `GetMetas` over the AVL sets | structural induction over terms and formulas, using the set theorems |
| C52 | slices on an explicit heap of arrays with spare room | frame theorem; negation witness for two extensions of one list; invariant over programs extending each list once |
| C53 | parallel key and value lists | refinement to a function by induction on operation sequences |
| C54 | increment and read as two steps of a goroutine | negation witness schedule; partial for calls that do not overlap |
| C55 | cleaning loop over the substitution model | invariant over rounds; negation witness for two parent metavariables bound to one child metavariable |
| C56 | dispatch loop with the deduplicating list `Add` | negation witness for a repeated cleaned substitution; partial for distinct ones |
| C57 | tree of processes with their channels, every answer and every decision left open | well-formedness invariant of the tree, progress theorem; negation witness with rewriting: the child of a rewriting is told to wait and then forgotten |
| C58 | `PruneMetasInSubsts` with the discarded result | negation witness; the call is proved to regroup only |
| C59 | `checkLPO` on top of the model of C38 | stability of the ordering for decided constraints; negation witnesses for simplified ones: the remaining arguments are forgotten |
| C60 | AVL sets as nodes in memory (`Verif.Lib.SetsAlias`) | insertion in memory refines insertion on trees, with a frame condition; negation witnesses for an older set gaining and losing members; partial: programs that replace the variable they add to |
| C61 | same model as C42, with panics as `none` | negation witnesses (an axiom consumed with no rule, four shapes that crash); partial: for all axioms outside these shapes, a consumed axiom follows from its rules |
| C63 | same model as C50 | negation witness ({X ↦ g(Y)} and {Y ↦ g(X)} are combined); {X ↦ Y}, {X ↦ a} are not combined though unifiable; partial: combinations in which no bound metavariable occurs in a bound term can be satisfied |
| C62 | nodes of the incremental search with rules, reintroduction lists, substitutions and closure flags, goroutines as tasks taken in any order (`Verif.Search.IncrSearch`); Go's rule for implementing an interface as inclusion of method sets | refuted: no rule implements `GammaRule` because the result type of `getVarList` differs; in every state of every run the reintroduction lists are empty; an unsatisfiable formula that needs two instances is left open |
| C64 | same model as C62; the index is any oracle that answers as the model of C30 | negation witnesses: a satisfiable formula closed by the cyclic bindings X ↦ f(Y), Y ↦ f(X), another one because a branch closed by ⊥ does not report again; partial: for ground formulas every schedule ends within a bound and the tree is closed exactly when the formula has no model (invariant relating counters, slots and reports; `IncrGround`, `IncrGroundRun`) |
| C65 | the main search as a whole (`Verif.Search.Main`): a tree of processes with their formulas, metavariables and substitutions, unbuffered channels as joint steps, any schedule; the index is any oracle that answers as the model of C30; without equality and rewriting | negation witnesses: satisfiable formulas reported closed (own metavariables removed from a substitution, C55; common substitutions of three children, C33; binding lost by the index, C30); each run evaluated by the kernel, each model given; partial: for ground formulas without equality every schedule ends within a bound, no process gets stuck, and the verdict is exact (invariant and cost over the whole tree of processes; `MainGround`, `MainGroundRun`); the same for formulas without equality whose quantifiers all assert the existence of something, so that only the delta rule meets them (`MainDelta`, `C65_delta_*`; the delta rule keeps satisfiability but not the model, a fresh symbol being bound at each step of the run; that a symbol is shared by equal formulas, as preinner Skolemization does, is not covered); a fourth witness, `C65_violated_alone`, has no disjunction at all and is closed by the index; partial, soundness only: formulas whose disjunctions are outside of universal quantifiers, literals of one sign per predicate being under these (`C65_late_partial`, the index of the code) or any literals (`C65_late_index_partial`, an index as C30 asks for). `MainSound` has the scheme (a property of branches kept by every round, over the tree of processes), `MainLate` the formulas, `MainLateRun` the rounds: the branch has a model for all values of its metavariables |
| C66 | `getVariableOccurrencesForm`, `getTermAt` and their callers in dependency.go (`Verif.Mods.Gs3Terms`) on the instances made by the rules of the search | proved for Skolem terms and fresh metavariables; partial for values: each argument of an atom contains the variable at most once, otherwise the replacement of the metavariable stops at the first occurrence and the translation ends with an anomaly (negation witness) |
| C67 | the whole translation with its heap of shared sequents (`Verif.Mods.Gs3`), trees and rules as the Rocq output reads them (`Verif.Mods.Gs3Spec`); without rewriting | negation witnesses: Skolemising a formula in which the variable does not occur panics; a result weakened twice. Partial: tableaux in which no Skolem symbol occurs before its introduction, whatever the order of their other steps: a refutation is built; refutations are sound |
| C68 | `Rewrite` with its maps and code trees (`Verif.Mods.DmtRewrite`), on top of the models of registration (C42), of the index (C30) and of cleaning (C55); any answer of the parallel search in the tree | negation witnesses, each with the axiom it comes from: a satisfiable literal and axiom rewritten into a contradiction (binding lost by unification), a metavariable of the rule brought into the branch, an anomaly that ends the program. Partial: for literals without metavariables no failure, results of exactly the matching rules, soundness from the axiom to the rewritten formula, truth and falsity first |
| C69 | the whole procedure (`Verif.Equality.Bse`, its index in `BseTree`): constraints, left and right rules, the tree of goroutines as a relation from a problem to the answers it can give when it is not killed, goals in sequence, `Solve`; terms without type arguments, printed terms as keys taken to be injective | negation witnesses: `b = c` with `a ≠ c` is closed in every run (the right rule on the second side forgets the first side); a binding lost by unification. Partial, by an invariant of runs (`BseSound`): goals `s = X` with E and s ground; E and t ground with t minimal, any s, and the same for lists of goals and `Solve` |
| C70 | as C69 | negation witness: `b = d`, `a = d`, goal `b = a` gets no answer in any run (the left rule on the second side of an equality loses the first side). Partial: convergent equalities and a second side in normal form, there the answers are exactly the consequences |
| C71 | as C69, ground | proved: on ground problems the answer is a computable relation (`Derives`), well-foundedness by the term ordering over finitely many symbols (`C38_wellfounded`) and by the pairs decreasing; a goroutine that has received a kill order is not part of the statement |
| C72 | `eliminate` (`Verif/Unif/Subst.lean`), loops of the code bounded by a number of rounds | the property says that some number is enough. No cycle: a height for the keys; in a round the largest height of a key in a term goes down. Cycle: a finite set of keys closed under a successor function; in a round that does not fail two keys get the same successor, so the image is a smaller such set (`Verif/Unif/ElimTotal.lean`) |
| C73 | retrieval of equalities, disequalities and complementary literals through the index, the ordering of the answer, the lists of goals (`Verif/Equality/BseBuild.lean`); the answers of the index for a query of fresh metavariables (`Verif/Unif/Fresh.lean`) | partial: exact for all literals if the index given to the metavariable for the type does not occur in them; that condition can fail, since type metavariables have a counter of their own (`C73_violated`: `f(X) = a` is read as `f($i) = a`). Not modelled: polymorphic literals, where the type argument is a metavariable or the predicate has type arguments |
| C74 | states as literals and an address of a structure, steps in any order (`Verif/Equality/BseShare.lean`) | proved without `-increq` by the invariant that each structure belongs to one state; false with it (`C74_violated`: `(a = b ∨ c = d) ∧ a ≠ b` is closed). Not modelled: data races on the shared structure; the assisted mode, which applies substitutions without a copy |
| C75 | `EqualityReasoning` on indexes, structure, `Solve` (`Verif/Equality/BseBranch.lean`) | partial: false both ways (`C75_violated_sound`, `C75_violated_complete`); sound if the equalities are ground and the second sides of the goals ground and minimal; exact for ground branches with convergent equalities and second sides in normal form, via the algebra of terms modulo the equalities |
| C76 | many-sorted structures and well-sorted formulas as specification (`Verif/Typing/Sorted.lean`), a computed run of the equality module (`Verif/Equality/BseExec.lean`), literals as put into the index (`Verif/Typing/SortedProps.lean`) | partial: false with equality reasoning (`C76_violated`: from `X = Y` at type `A`, `b ≠ a` at type `B` is closed); true for closed tableaux without equality reasoning, and for any one-sorted refutation when no positive equation has a variable side, by changing arguments to their types. Polymorphic functions and type quantifiers: only in the semantics |
| C77 | rule applications on branches with the table of identifiers, structures with a universe of types (`Verif/Typing/TypeQuant.lean`) | partial: false (`C77_violated_same`: `∀A. p(A,A)` proves `∀A,B. p(A,B)`; `C77_violated_dependence`: the constant does not depend on type metavariables). True without delta steps, with one sort and (well-sorted formulas, polymorphic declarations) with many; one delta step with a new constant is sound for given values of the metavariables. Delta steps on element variables next to type quantifiers are not treated |
| C78 | the script as a list of tactics with names and terms, and a small Rocq that accepts no more than Rocq does (`Verif/Mods/Rocq.lean`); GS3 trees as in C67 | partial: false (`C78_violated_three`: n-ary conjunctions; `C78_violated_named`: a constant whose name contains "sko"; `C78_violated_conjecture`: panic without a conjecture). Whatever script is accepted proves that the axioms imply the conjecture; the script of a GS3 refutation is accepted under conditions that can be read off the refutation (`ready`), by simulation of the two lists of hypotheses. Printing, the declarations before the theorem and rewriting steps: not modelled |
| C79 | the clauses `buildSAT` generates for the state of C39, any satisfying assignment, any order of the maps (`Verif/Equality/SatBuild.lean`); the solver is trusted to answer with a satisfying assignment or that there is none | partial: false (`C79_violated`: `f(a) = b` and the goal `f(X) = a` are answered with `X ↦ a`, because the second of two congruent terms may be in any class; `C79_violated_no_goal`: without a goal the clause that some goal is reached is empty and dropped). True if terms with the same symbol are not in different classes next to a third, and for all assignments that use congruence between the classes in question; then an instance is a rigid E-unifier |
| C80 | as C79 | proved: the order literals are a well-founded order on classes, so the translation ends; following the chains of bindings gives terms that satisfy all bindings. Remark `C80_loop`: the substitution need not be triangular (`X ↦ Y`, `Y ↦ X`) |
| C81 | as C79 | partial: false without metavariables (`C81_violated`, from C39). True as soon as a metavariable occurs: the assignment is built from the rounds of congruence closure, which end within the number of pairs of classes, and from smallest terms of classes. The SAT problem thus repairs what the congruence closure of C39 misses |
| C82 | `Verif/Mods/Tptp.lean` (all steps of src/Mods/tptp/proof.go as lines with names, sequents, indices and premises; the recursion by depth; a panic or anomaly is `none`), a checker for the lines of the SC-TPTP rules used, `TptpProps.lean` (the checker is sound), `TptpSwap.lean`, `TptpGood.lean`, `TptpAccept.lean` (renaming of Skolem terms), `TptpEx.lean` | partial: a derivation that the checker accepts shows the conjecture (`C82_accepted_holds`); refutations that are `Good` (no weakening, closed by complementary formulas, no equivalence with a negated side, Skolem terms at most once in the term of a gamma step) give accepted derivations, by induction on the depth with the invariant that original formulas and printed formulas differ by the renaming. Violated for weakening (each such step: `C82_weaken_rejected`), weakening below a delta step (panic), equivalences with a negated side (anomaly), `⊥`, `¬⊤`, a Skolem term used twice in a gamma term or in a branch other than the one that creates it, existentials without an occurrence of their variable (nil), a user constant `sko_0`, and problems without a conjecture. Not modelled: printing, rewriting steps, equality closures |
| C83 | `Verif/Mods/Lambdapi.lean` (the proof term of src/Mods/lambdapi/proof.go with the names of the global map, and a type checker with the rules of LambdaPi/GS3.lp), `LambdapiProps.lean` | partial: accepted terms show the conjecture; terms are accepted for problems without axioms and refutations without quantifiers and weakening, with binary connectives, closed by atoms, `⊥` or `¬⊤` (invariant: each name is the position of its formula in the map). Violated: with axioms the abstraction is over a conjunction and the theorem about an implication, so the term never has the type (`C83_violated_axioms`), and the printed theorem is false wherever an axiom fails (`C83_violated_theorem`); quantifier steps have an empty type argument; weakening is fatal; connectives with more than two parts; branches closed by compound formulas. Not modelled: printing of formulas (the code prints TPTP syntax, which Lambdapi does not read) and declarations |
| C84 | `Verif/Parser/Lex.lean` (all of src/Parser/tptp_lex.go, with the position in the text as a zipper; characters are bytes; a panic or fatal error is `none`), `LexProps.lean` (spec: how tokens are spelled and separated), `LexNum.lean`, `LexFilter.lean`, `LexMain.lean` | partial: true for texts written with care (space after quantifiers, `(` after keywords, no `+5`, no backslash in quotes, no `$true_1`, final line end), by induction on the tokens; the loop over white space and comments by induction on the length of the separator. Violated for each of these (`C84_violated_*`), and an unknown character is taken as the end of the file without a message |
| C85 | `Verif/Parser/Grammar.lean` (the FOF rules of src/Parser/tptp_parse.y as derivations `D`, `DTerm`, `DVars`), `GrammarProps.lean` (`DStmt`, `DFile`) | proved: a parser by recursive descent finds each derivation (`found`, by induction on derivations), hence there is one; formulas with parentheses are derived by recursion and their meaning is that of C16; mixed connectives by running the parser |
| C86 | as C85 | partial: distinct objects with different texts are different constants; violated: the same constant as the word with that text, and not different from each other in all structures |
| C87 | `Verif/AST/Print.lean` (`ToString` with the default connectives, with the removal of parentheses on characters), `Verif/Parser/PrintBack.lean`, `PrintMain.lean` (`makeTheorem` of the TPTP output) | partial: for names that are words, no empty connective, quantifiers over formulas that are printed without a binary connective on top, and file names of letters, digits, `_`, `.`, `=`, `+`, the text is read in one way only, with the same meaning; by induction on the formula with the invariant that the text is balanced and spells tokens with a derivation of what is meant, then C84 and C85. Violated for quantifiers over binary connectives, names with capitals, and file names with a dash |
| C88 | `Verif/Whole/Ground.lean` (problems without variables and equality and the formulas made of them), `Program.lean` (`Reads`: files, lexer, grammar and includes; `Prints`: elaboration, rounds and concurrent search put together; spec `Says`: what a text says, with `RoleSays`, `SD`, `SFile`), `Props.lean`, `Text.lean` and `Cases.lean` (concrete texts) | partial: for problems without quantifiers and equality, in any number of files, what is printed is right (`C88_partial`), something is printed (`C88_answers`) and every schedule of a round is bounded and can be continued (`C88_rounds`); composition of C84, C85, C43, C65 and C35, with an induction over files that the formula searched is ground. With `-l` and a negative verdict nothing is ever printed (`C88_limit_never`). The same (`C88_delta_*`) where every quantifier asserts the existence of something (`Closed.lean`: an induction over files for any class of formulas kept by elaboration, renaming, negation and conjunction; `Delta.lean`, `DeltaProps.lean`, `DeltaCases.lean`). In general violated by a text of two lines (`C88_violated_capture`) and, without any variables being mixed up, by a text of one line (`IndexCase.lean`, `C88_violated_index`) |
| C89 | as C88 | partial: without `-l` it is the number of quantifiers (induction over the nesting of files, the counter being global); with `-l` true if no included file has a formula; violated otherwise: the given bound is not used at all (`C89_ignored`) |
| C90 | `Verif/Mods/RocqContext.lean` (`formLines`, `termLines`, `clean`, printing of types with the Rocq printer; spec `Good`: a signature of words with types over `goeland_U` in which the formula is well typed), `RocqContextProps.lean` | partial: for untyped problems the lines are right if and only if each name has one use and is no word of Rocq (`C90_iff_partial`); by induction on the formula, the lines being without repetition those of the symbols (`C90_lines`, for any types), and a line determines name and type. Violated: two numbers of arguments, keywords, and types declared by the problem are never declared (`C90_violated_types`) |
| C91 | `Verif/Mods/Assisted.lean` (the counter, the rules on the formula with a number, the goroutines as a transition system in which a crash is a step to nowhere; states and rules of `Verif.Search.Main`), `AssistedProps.lean` (spec `Applied`: what it is to apply a rule to a formula) | violated on every problem: nothing is ever asked, and every run leads to a crash or, for `⊥`, a deadlock (`C91_never`, invariant over all schedules). The functions for alpha, delta and gamma use the formula chosen (`C91_choice_partial`); beta always uses the first one, reintroduction not always the one chosen, and a substitution found twice shifts the numbers (`C91_violated_*`) |
| C92 | `Verif/Mods/LambdapiContext.lean` (the collection of symbols is that of `RocqContext.lean`; spec `Declares`: the form of a Lambdapi declaration) | violated on every problem with a symbol: no line gives a type (`C92_never`); of several metavariables only the first is declared (`C92_violated_metas`). Each symbol used has exactly one line `symbol n;` (`C92_names_partial`), and a single metavariable is declared (`C92_meta_partial`) |
| C93 | `Verif/Search/MainProof.lean` (what each process writes down: `proof`, `current_proof`, `proof_tab`, `overwrite`, `childOrdering`, along the steps of `Verif.Search.Main`), `MainProofSpec.lean` (spec `Tableau`: each step applies its rule, each branch is closed), `MainProofViolated.lean`, `MainProofGround.lean` | violated: a branch without proof and a branch with the proof of another substitution (`C93_violated_gone`, `C93_violated_stale`). Proved for every schedule, by an invariant on the tree of processes and their notes, for ground formulas, with the GS3 refutation made from the proof (`C93_ground_partial`, `C93_ground_gs3`), and for formulas that need the delta rule only (`C93_delta_partial`), with the GS3 refutation if each quantified variable occurs (`C93_delta_gs3`, `MainProofDelta.lean`) |
| C94 | `Verif/Search/Output.lean` (`fmt.Printf` without arguments as documented, the order of the lines of both searches, the basic text output; spec `wanted`: the verdict, then the texts between two lines) | partial: for the main search what is written is the verdict and the texts after `fmt.Printf` (`C94_main`), hence what is wanted when no text has a percent sign (`C94_main_partial`), with the basic output for every proof whose formulas have none (`C94_basic_partial`). Violated by `%` (`C94_violated_percent`) and on every run with `-incr` (`C94_violated_incr_verdict`, `_open`, `_fatal`) |
| C95 | `Verif/Search/IncrProof.lean` (what each node remembers along the steps of `Verif.Search.Incr`, `getResult`, `getProofStruct`, `InstanciateAny`; spec `Tableau` of C93), `IncrProofGround.lean` | violated: first substitution with the literal of the last (`C95_violated`). Proved for every schedule, by an invariant on the tree and its notes, for ground formulas whose conjunctions and disjunctions have two members or more, with the GS3 refutation made from the proof (`C95_ground_partial`, `C95_ground_gs3`) |
| C96 | `Verif/Whole/Include.lean` (`getFile`, the directory handed on, `path.Clean`, `path.Join`, `path.Dir` as documented; spec `meant`: following names from absolute places) | partial: one include is right if and only if no other file seen from the directory of the call hides it (`C96_step_iff`); chains of files beside each other followed by library files are right, by induction (`C96_usual_partial`); the instance for the files of C88 (`C96_files`). Violated by hidden files, library files and absolute names (`C96_violated_*`) |
| C97 | `Verif/Search/ProofMetas.lean` (`RetrieveUninstantiatedMetaFromProof` with the sets of C01–C06 and `GetMetas` of C51; spec `Occurs`: inductive) | partial: proved for every proof of the main search, by induction on the proof (`C97_metas_partial`, `C97_closed`); violated by the incremental search (`C97_violated_incr`) |
| C98 | `Verif/Search/Exchanges.lean` (records, version numbers, `json.MarshalIndent` as documented; spec: a relation between texts and JSON values after RFC 8259) | partial: for all rounds and texts the file is the JSON array of the records, by induction on the calls (`C98_file_partial`, `C98_first_partial`). Violated: crash without the directory, one name for all processes without a debugger, versions not counted from zero in later rounds |
| C99 | `Verif/Mods/AssistedHint.lean`: `printGoelandChoice` and `chooseReintroRule`; the search is `Main.rules`, the specification of a step is `Applied` of C91 | Partial: `C99_hint_partial` (induction over the two loops that choose the formula to reintroduce; case analysis for the rest) for the states outside the two violations, `C99_closure` and `C99_closure_total` for all states; `C99_violated_crash`, `C99_violated_gamma`, `C99_statement_false` |
| C100 | `Verif/Whole/Options.lean` (the package `flag` as documented, all options with their functions in order, how the settings are read), `OptionsSettings.lean`, `OptionsProps.lean`; spec: `Written`/`Line` (how options are written), `value`, `Effect` (the help texts) | partial: `C100_effects_partial` for all command lines outside the violations, `C100_order` and `C100_message` for all; by induction over the command line and a closed form of each setting. False in general: `C100_violated_incr`, `C100_violated_inner`, `C100_violated_outputs`, `C100_statement_false` |
| C101 | `Verif/Whole/Incr.lean`: reading and elaboration as in C88, which axioms `-dmt` takes out, the incremental search of C64, its proof of C95 and what C94 says is printed; spec: `Shown` (some text of a proof is printed) and `FollowsEq` | partial: `C101_partial` for problems without quantifiers and equality, without `-dmt`, for all schedules; `C101_ends` (every schedule ends), `C101_answers` (the program ends with an answer) and `C101_proof` (the proof can be made, and is a closed tableau; `IncrAnswers.lean`). By C64 and C95 for ground formulas and the elaboration of C88; `presearch_wide`: for every problem, the formula has no conjunction or disjunction with one member inside a statement. False in general: `C101_violated_dmt`, `C101_violated_equality`, `C101_violated_instances`, `C101_violated_cycle`, `C101_statement_false` (`IncrCases.lean`) |
| C102 | `Verif/Whole/Certificates.lean`: reading and elaboration as in C88, the main search with its proof (C93) or the incremental one (C95), and the GS3 module (C67), joined; spec: `States` (the formula can be made true exactly where the axioms hold and the conjecture does not) and `Checked` (the module makes a refutation of the formula, with all options) | partial: `C102_main_partial`, `C102_incr_partial` for problems without quantifiers and equality, for all schedules; `C102_main_exists`, `C102_incr_exists` (for each such problem that follows a proof is found); for every text: `C102_printed` (a positive verdict has its proof), `C102_shown`, `C102_means` (a checked proof means that the conjecture follows). For problems whose quantifiers all assert existence (`CertDelta.lean`): `C102_delta_partial`, `C102_delta_exists`, where the refutation needs that each quantified variable of the formula searched occurs. False in general: `C102_violated_capture`, `C102_violated_cycle`, `C102_violated_idle`, `C102_statement_false`, `C102_statement_false_incr` |
| C103 | `Verif/Unif/Mixed.lean`: terms with type arguments, their translation to terms for unification and back, and the procedures of `MergeSubstitutions` on such terms; spec: `PT.val` (type arguments are arguments) and `Sat` (the instantiation satisfies each binding) | partial: `C103_roundtrip`, `C103_again` (`MixedProps.lean`; induction on terms); `C103_mono` (without polymorphic symbols merging is that of C28; simulation of the machine in `MixedMono.lean`) and `C103_merge_partial` (without polymorphic symbols, substitutions with ground values are merged exactly if an instantiation satisfies both), `C103_general` (and with other values the result is most general); `C103_disjoint` (`MixedDisjoint.lean`: with polymorphic symbols too, substitutions with ground values for different metavariables are merged to their union). False with polymorphic symbols: `C103_violated_constant`, `C103_statement_false`, `C103_violated_function`, `C103_complete_false`, `C103_violated_unresolved` |
