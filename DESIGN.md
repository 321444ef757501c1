# Formal model of ehabterra/apispec — design

## Trusted base

* Lean 4.33.0's kernel, and at most the three standard axioms `propext`, `Classical.choice`, `Quot.sound` (the last section lists them per theorem). No axiom of our own, no `sorry`, no `native_decide`/`bv_decide`.
* The faithfulness of the model: the Lean definitions are hand transcriptions of the Go functions they cite. Nothing mechanically links them to the Go source; the Go code was read, never built or run.
* Assumptions about Go and its library, stated where they are used: `sort.*` sorts (modelled by a stable insertion sort), `strings.*` functions as list functions, `regexp` as a denotational semantics of the fragment the code emits (`RegexModel`), `reflect.StructTag.Lookup` transcribed (`TagsModel`), `strconv.Unquote`, Unicode tables and user-supplied regexes as arbitrary parameters.

## Conventions

* Strings inspected character by character are `List Char`; the Go code works on bytes, but every byte it tests for is ASCII. Strings used only as keys are `String` or an arbitrary type with decidable equality (and a total order where sorted).
* Go maps are association lists in arbitrary order; "independent of map order" is invariance under permutation.
* Pointers that matter (sharing, cycles, identity) are indices into a heap; pointers that do not are values.
* A panic is `none` in an `Option` result; loops without an evident bound take fuel, and the theorems show how much is always enough or that none is.
* Integers are `Nat`/`Int` without overflow, except where a theorem says otherwise (`C41_numbers`).
* Each `*Model` file holds the transcriptions with file and line citations; `*Spec` files hold specifications that do not mention the model's helpers; `*Props` files hold the property theorems, the non-vacuity examples and the negation witnesses.
* A theorem named `_partial` proves part of its property; theorems without the suffix that a property's note calls a witness prove that the full claim is false of the code.

## Plan and outcome per property

| id | property | model and proof plan | outcome |
|---|---|---|---|
| C01 | No dangling component references | Model the typed document as a finite tree of schemas and the walk of forEachSchemaRef; prove by structural induction that after repair every reference visited is defined. Spec: an inductive 'occurs in document' relation written independently of the walk. | proved. For every document whose pointers are in range (always true of a Go value), cyclic or shared schemas included. |
| C02 | Reference repair is conservative and its report is exact | Same model; counts are compared with an independent occurrence count; idempotence and conservativity by list lemmas. | proved. Site counts are stated for documents with a finite serialization; all other clauses for every document. |
| C03 | Go type reported for an unresolved component is unambiguous and order independent | The used-type table is a list in arbitrary order; prove the lookup equals a declarative 'unique preimage' spec and is invariant under permutation. | proved. The name mangling is an arbitrary function. |
| C04 | Mount prefixes compose | Strings as lists of characters; joinPaths modelled literally (TrimRight/TrimLeft of '/'); associativity and seam lemmas by case analysis. | proved |
| C05 | A route mounted under nested prefixes carries every prefix | Fold of the mount step over a list of prefixes vs. fold of joinPaths. The HasSuffix shortcut breaks the full claim: negation by witness, partial theorem when no prefix is a suffix of what is accumulated. | partial. Proved when no prefix is already a suffix of what is accumulated; C05_repeated_prefix_lost proves the full claim false of the code (the HasSuffix shortcut loses a repeated prefix). |
| C06 | Router path syntax is converted to OpenAPI templates | Character-level model of the converters; idempotence on paths with balanced, non-nested braces; negation witness for nested braces. | partial. Conversion proved for all well-formed router paths; idempotence proved when names are brace-free; C06_idempotence_fails_on_nested_names proves it false in general. |
| C07 | Every path-template variable is declared | List model; coverage for identifier placeholders, uniqueness when the template has no repeated placeholder; negation witness for a repeated placeholder. | partial. Proved for identifier placeholders, lower-case synthesized names and templates without repeated placeholders; three theorems show each proviso is needed (the code breaks the full claim). |
| C08 | Parameters are unique per operation | First-occurrence dedupe by key; Nodup of keys, sublist, first occurrence kept. | proved |
| C09 | Duplicate discoveries of one registration collapse without losing routes | Model segments, subsequence test and the keep filter; independent inductive Subseq spec; strict-order well-foundedness argument that every dropped route has a maximal kept superset. | partial. Survival, order, types, responses and request body proved; C09_parameters_lost and C09_public_lost prove that parameters and explicit public marks of the dropped route can be lost. |
| C10 | Statuses and bodies pair up correctly | State-machine model of the pairing loop folded over the sorted fragments; invariants by induction over the fragment list. | proved. Proved for the pairing code; handlerCallDepths is an arbitrary depth table and the walk that collects the candidates and names their frames is modelled too (C10_candidates, C10_frame); what is read off a node is not. C10_unreadable_status_ignored records that an unreadable status write does not displace a readable one written before it. |
| C11 | Bodyless statuses carry no content | Model buildResponses as a map over response infos; decision lemma for every status. | proved |
| C12 | Choosing between two observations of one response is order independent | preferResponseInfo as a binary operation; show it computes the minimum of a total preorder, hence permutation invariant; request version: negation witness for order dependence on ties. | partial. Among observations of different Go types proved in full; C12_tie_order_dependent and C12_request_order_dependent prove the claim false on ties and for request bodies. |
| C13 | Security has exactly three states | Model of resolveSecurity and applyRouteSecurity over abstract match predicate; iff-characterisations of the three states. | proved. For middleware whose rendered names tell them apart (Distinguished); looking through wrappers is a parameter here, see C48. |
| C14 | Unmapped middleware is reported, mapped middleware is not | Unresolved list equals a filter by an independent predicate; Nodup after recording. | proved |
| C15 | Emitted requirements are as strong as the middleware applied | Semantics of a requirement list (OR of AND) as a predicate on granted credentials; partial theorem with no alternatives and no clashing keys; negation witnesses. | partial. Proved without alternatives, conflicting scopes and handler wrappers; three theorems show the code breaks the claim in each of those cases. |
| C16 | Deduplicating security requirements preserves meaning | First-seen dedupe through a string key; partial theorem for names/scopes without separators (injectivity of the encoding proved), negation witness otherwise. | partial. Proved for scheme names and scopes free of separator characters; C16_comma_confused proves the claim false otherwise. |
| C17 | Every scheme named by an operation is defined | Set-level model; inclusion theorem by list induction. | partial. Definitions characterised exactly; C17_dangling_emitted proves that a scheme nobody defines stays undefined in the document. |
| C18 | Security presets are applied once and never override the user | Model the latch; idempotence and order theorems. | proved |
| C19 | Framework detection is order faithful and complete | Fold over files/imports with early exit vs. the same fold without; equality theorem and declarative characterisation. | proved |
| C20 | Composing framework configs keeps every detected framework | List model of composition on top of the merge model. | proved. The preset configurations are parameters; the net/http layer is transcribed and shown to meet the hypotheses. |
| C21 | Merging configs never lets a secondary override the primary | Key-based merge model; prefix theorem, omission theorem, idempotence; negation witness for keys ignoring the exact receiver. | partial. Primary precedence, order, idempotence proved in full; the omitted-only-if-equivalent clause for patterns written like the presets; C21_receiver_type_ignored proves it false for exact receiver types. |
| C22 | Reachability pruning never loses a route | Graph as adjacency function on a finite list; BFS/backward propagation proved equal to the inductive reachability relation. | proved |
| C23 | Cycle condensation is correct | Iterative Tarjan modelled as a transition system; correctness by invariants. | proved |
| C24 | Entrypoint gate is exact | BFS exactness + condensation pass; counts add up. | proved |
| C25 | Expansion always terminates within its budgets | Transition system whose states are the expansion counters and the frontier; invariants on counters and on path freshness; termination measure. | partial. All clauses proved for parent chains. Followed through child lists, a path can repeat a call (C25_chain_repeats): a chained call is listed under one node and parented to another. Budgets overshoot by less than one expansion, as the code checks them between expansions. |
| C26 | Truncation is reported exactly | Same transition system with the truncation flags as history variables. | partial. Proved: silence means no budget mattered; a report names a budget really spent; a request is honoured or reported; counts exact. False in general: the children limit drops calls silently (C26_children_limit_silent) and a leaf can raise a false alarm (C26_false_alarm). |
| C27 | Prioritising routes never changes what is explored | Stable partition: permutation + sublists. | proved |
| C28 | Type strings survive parsing | TypeRef as an inductive type, render to characters, parser modelled with explicit bracket matching; round trip by structural induction over well-formed trees. | partial. Round trip for every well-formed type, injectivity, totality, internal round trip and canonical keys on types with plain names. False in general: C28_not_idempotent (malformed text) and C28_function_argument (function types as arguments). |
| C29 | Ignore patterns follow gitignore semantics | patternToRegex modelled as a translation to a small regex AST with a denotational matching relation; an independent path-pattern semantics; equivalence by induction. | partial. Exact gitignore semantics proved for every clean pattern (segments of ordinary characters, *, ?, simple classes, ** as whole segments); false outside: doubled trailing **, leading slash without other slash, [!..], classes crossing /, ] first in class, line breaks (witnesses). |
| C30 | Exclude beats include | Decision functions over an abstract match predicate. | partial. Decision logic exact for all lists; analysed files exact when parses line up with the file list; false for cgo packages (witness); patterns in a configuration file are ignored (witness). |
| C31 | Handlers that branch on the method become one operation per method | List model with position ranges; membership characterisation. | partial. Dispatch branches are found exactly, one route per method, explicit verbs never split; attribution of responses exact for sites in the handler file inside or outside all branches; false for responses shared after the switch, same-file helpers and fall-through (witnesses). |
| C32 | Every registered verb reaches the document | Verb-set decision; negation witness TRACE/CONNECT; partial theorem for the seven operations. | partial. Verb lists are read exactly, the operations of the document are exactly the last route per path and verb, every verb except TRACE and CONNECT of a registration is documented; TRACE and CONNECT are lost (witness). |
| C33 | Method inference only uses whole words | Character-level splitNameWords; stable sort by priority; characterisation. | proved |
| C34 | String interning is lossless and stable | State machine of the pool; invariants over all operation histories; reload theorem. | proved |
| C35 | Call identifiers strip to their base | Character-level IDs; prefix/separator lemmas; sort-based order independence. | partial. Stripping exact for names without @ and [; false for methods of generic types (witness); order independence and distinctness of positions proved; a call copied with further type arguments keeps its old instance id (witness). |
| C36 | Shared caches are transparent under concurrency | Small-step semantics of the double-checked lock pattern with an arbitrary scheduler; linearizability-style invariant. | proved. All schedules of any number of goroutines, critical sections atomic; the string pool, which the property does not name, has no lock and a race in it is exhibited. |
| C37 | The UI server runs one generation at a time | Transition system of the UI server (lock regions as atomic steps); inductive invariant. | proved |
| C38 | A superseded or foreign result is never published | Same transition system; the claim is false for the shipped code (check-then-act): two negation witnesses (executions) plus a partial theorem for schedules without force/project switch in the window. | partial. holds without force and while the project stays selected; seven schedules in which it fails are proved |
| C39 | Diagram pages partition the diagram | List slicing model; concatenation theorem; has-more negation witness and partial. | partial. pages partition the shown nodes for distinct ids and page numbers that do not overflow, first-page more-flag exact; more-flag wrong on later pages, parents repeated, parent edges missing, order not stable with two mains, overflow crash (all proved) |
| C40 | Call-path metrics are right | Path counting by well-founded recursion; equality with the list of simple maximal paths on acyclic graphs; cap theorem. | partial. distances, completeness, sample, grade and, without recursion, the path count are proved; with recursion the count is wrong, the walk that resolves interfaces reports depths that are not shortest, and functions named like builtins are dropped (all proved) |
| C41 | Validation rules map to the right keyword | Character-level tag splitting and per-rule update; negation witness for leaking tags. | partial. Rules to keywords exact for every rule list and nesting of dive when validate is the last key and arguments have no brace or colon; false when another tag follows or mentions min: max: (witnesses); oneof on an array without items crashes; zero bounds vanish; rules after dive on a map are dropped (proved for all). |
| C42 | Enums list every constant once | Sort + adjacent dedupe; Nodup, membership, permutation invariance. | partial. Each value once, in text order and independent of map order for all metadata; exactly the constants of the Go type for packages that tell them apart; false for mixed blocks, conversions, blank constants, long strings, shared type names and the components of declared types (witnesses). |
| C43 | Form parameters land in the right place | Partition of the parameter list; membership theorems; negation witness for duplicates in required. | partial. Placement proved in full; C43_required_twice and C43_file_lost show where the code loses "every field once". |
| C44 | Schema generation terminates on recursive types | Worklist/visited model of generation over an arbitrary type table; termination by the number of unvisited types; closure theorem. | partial. termination proved for every finite table whose declared names may be components; every reference of routes and components has a component for tables without arrays of names, absent builtins and scalar mappings (hypotheses PlainTable, FitTable); the failures outside them are proved: a self-referential type named *_nested diverges, array and mapped references dangle, an overridden recursive body refers to itself, nested slice bodies leave a wrong component |
| C45 | Generic type resolution terminates | Fuelled chain following; divergence proved on cyclic tables; termination and correctness on acyclic ones. | partial. ends exactly without reachable cycles; the right result if names are not reused; forwarding a type parameter under its own name never ends (proved), texts are resolved in the wrong scope (proved) |
| C46 | Component names are legal and distinct | Replacer as a character-level function; charset theorem on clean inputs; collisions as negation witness. | partial. names of types built from words, paths, arguments and slices are legal; distinct for plain words; collisions and illegal names of other types are proved |
| C47 | Output does not depend on map iteration order | Permutation-invariance theorems for each sorted walk (total orders on keys). | partial. Proved for the walks modelled; see DESIGN.md for those that are not. |
| C48 | Middleware found through helper functions does not depend on query order | Memoised DFS with on-stack guard; negation witness on a cycle; exactness on acyclic graphs. | partial. False in general (C48_history_matters): an answer remembered while an enclosing function is still being resolved misses middleware. Proved: soundness always, completeness of a first question, completeness after any history where no recursion is involved. |
| C49 | JSON field names follow encoding/json | Character-level tag parse; negation witness; partial for tags whose first json: key is the real one. | partial. Omission exact for every well-formed tag; the name exact when no earlier key or value contains json: and it has no space; false otherwise (witnesses: other key ending in json, names with spaces, "-,", interpreted literals). |
| C50 | Path concatenation resolves left to right | Structural induction over concatenation trees. | proved |
| C51 | Caller/callee scope filters are conjunctions of alternatives | Boolean characterisation theorem. | proved |
| C52 | User type mappings win and exact beats short | List search characterisation. | partial. look-up fully characterised; the guards before it are not modelled; short names of instances and channels are wrong (proved) |
| C53 | net/http ServeMux patterns are split and normalised | Character-level model of the splitter and of the two rewrites; theorems for arbitrary method words, identifiers and literal text. | proved |
| C54 | Generating again from the same engine analyses the same code | The engine as a state machine over runs: the pattern lists it keeps between runs are state; induction over the number of runs. | partial. Proved for any number of runs without automatic framework inclusion; false with it (witness). |
| C55 | Operation ids are unique | Operation ids as a function of route and verb; injectivity under hypotheses on names, repeated-handler witness. | partial. Ids differ within one registration and between handlers with underscore-free names; one handler at two paths repeats its id (witness). |
| C56 | Metadata lookups answer like a fresh scan | Metadata plus its lazily built indexes as a state machine whose histories mix growth and questions; invariant: every index that passes its guard equals a fresh scan. | partial. Type, function, file and callee lookups exact over all histories of growth and questions; FunctionAnywhere and the call graph roots only while nothing is added after the first question (witnesses). |
| C57 | Every call is in the call graph exactly once | Syntax trees of calls; the recording walk over a list of calls with chain links; exactly-once by induction over the walk, with an independent count of calls. | partial. Each call once if calls that are not links of one chain have different ids; parents right if what is chained on is recorded; completes unless the first call is chained on a conversion; witnesses for curried calls, wrong parent and crash. |
| C58 | Chain depth counts the calls below | Same model; the recorded depth compared with the number of links below. | partial. False in general: no chain with a known root is ever deeper than 2 (proved for all programs) and a five-call chain is numbered 0 1 1 2 1 (witness). |
| C59 | Calls are attributed to the innermost enclosing function | Nested ranges; the pruned search equals an exhaustive one for properly nested trees; innermost spec by inclusion of ranges. | proved |
| C60 | Identities of function literals are stable and distinct | Paths as component lists; the name of a literal is a function of module-relative position; injectivity and independence theorems. | partial. Independent of the checkout except for directories starting with two dots (witness); distinct within the module; a module file can be named like a dependency file (witness). |
| C61 | Own types are documented from their declaration | resolveExternalType as a decision function with registry, facts and declarations as parameters; characterisation of every outcome. | partial. order of decisions proved; a project type called uuid.UUID or decimal.Decimal is taken for the well-known one (proved) |
| C62 | A failed generation is reported as failed | Same model as C37: replies and the error shown are part of the state; invariant over all executions. | partial. only the half about success holds; that no failure is ever reported is proved |
| C63 | The depth limit of a call graph diagram is exact | Breadth-first search over the edges as a step function with fuel; invariant: recorded numbers are lengths of shortest chains; independent inductive Chain as specification. | partial. exact distance and monotone for all graphs; functions only reachable from a cycle without entry function are never shown (proved) |
| C64 | A diagram answer belongs to the question asked and to the selected project | The page cache as a map from key texts; injectivity of the key for plain terms; server requests as program counters with an invariant over all interleavings; witnesses for collisions and races. | partial. holds for terms without spaces and brackets and switches between requests; key collision, lost switch and stale drawing are proved |
| C65 | Diagram filters select exactly what they say | The filter as a boolean function; equivalence with an independent conjunction of clauses. | partial. all filters characterised exactly; functions without receiver, signature or type arguments pass those filters and unknown scopes pass all (proved) |
| C66 | The package view shows the packages and their neighbours | The growing selection as a fold over edges; invariant with an inductive Joined relation; order witness. | partial. isolated view exact; the other view contains the neighbours but further nodes depend on the order of edges (proved) |
| C67 | The call graph drawing has one node per function and one edge per caller/callee pair | The drawing as a fold over calls; invariants relate node ids, names and edges; completeness when enclosing functions come first. | partial. nodes exact, edges sound, complete if enclosing functions come first; lost calls and wrong enclosing method are proved |
| C68 | The trace of an endpoint shows the nearest functions and all calls between them | buildGraph as a function of the two maps as association lists; sorting lemmas for the choice of nodes, membership lemma for the edges, permutation invariance; combined with the walk of C40. | partial. nodes, counts, mark and set of edges proved, independent of map order; the order of the edges is not (proved) |
| C69 | Schemas describe the Go types they stand for | The generator of C44 against an inductive relation Desc between Go types and schemas written after encoding/json; induction over the fuel of the generator with an invariant on the used types and components; lookup by name as its own function; witnesses for every excluded shape. | partial. routes and components proved for tables whose aliases are of builtin types, with the hypotheses PlainTable, FitTable, ExactTable; failures outside them proved: containers of aliases, aliases across packages, used aliases, inline structs with maps, names several packages declare, mappings of aliases, types of packages not scanned; embedded fields are not documented by the code and the model has no embedded fields |
| C70 | A doc comment becomes summary and description without loss | The text functions on lists of characters; relations Spaced, Prose and Blocks say what words, prose and annotations are; every text is shown to be of that form; induction over lines. | partial. annotated and plain comments characterised for every text; the split into words is proved for ordinary white space and a synopsis (parameter) whose words are those the comment begins with; losses proved for text without blanks between sentences and for other white space |
| C71 | An operation is documented with its own handler's comment | The lookup as functions on a table of packages; Legal states what the compiler guarantees; one theorem per handler shape; witnesses by evaluation. | partial. functions proved; methods, fields and values proved without the clashes for which a wrong comment is exhibited (namesakes in other packages, interface values, a type called like its package) |
| C72 | Only what is decoded from the request is its body | The backwards search with a visited set and fuel; the specification executes the assignments forwards (after, FromBody); soundness by induction on fuel, completeness by induction on the assignments; termination by counting unseen ids. | partial. proved both ways for functions and closures in which every variable is assigned once before it is used, without parentheses or functions applied to the body; termination and uniqueness of the answer for all inputs; losses and wrong answers outside that are exhibited |
| C73 | What is encoded is a response unless it goes elsewhere | The search rewritten as a graph search with a visited set; an unsuccessful search leaves a closed set of nodes, which cannot reach the writer; reachability equals the forward execution (Carries, holding) by induction over the assignments; termination by counting unseen ids. | partial. proved for functions and closures in which every variable is assigned once before it is used, without keyed elements or reads from fields; termination and uniqueness of the answer for all inputs; losses and wrong answers outside that are exhibited |
| C74 | A helper's parameter is what the route passes | The specification is the call stack (Value); Way relates the ancestors of a node to it; induction on the number of parameters passed on. | partial. proved for up to eight helpers when no call in between has a parameter of the same name; both limits are shown to matter |
| C75 | Values that are sent conform to the documented schemas | JSON values, the encoding relation (Enc) and conformance (Conforms) are specified apart from the generator; induction on the encoding derivation, using C69 (schemas describe types) and C44 (references have components). | partial. for the type tables of C69 (no arrays of bytes, builtin aliases only), values without null, and interface values that are objects; null and other interface values are shown to be rejected by the generated schema |
| C76 | The properties of a struct are the keys of its JSON | The specification is encoding/json's rule for promoted fields (Candidate, Key); the property map is characterised by the last shown field. | partial. a property is right whenever the struct has one thing at most per key, whatever it embeds; keys from embedded types are proved to be missing always, and name conflicts are shown to be resolved wrongly |
| C77 | Inline structs are read back as printed | Balanced texts (Text) leave the scanner in the state it was in; print and read are composed field by field. | partial. proved when the text of an embedded type has no blank; an embedded generic instance with one is shown to be read as a field |
| C78 | Bytes written are documented as what was serialized | The functions are executed (Ev, Run) with an arbitrary serialization; the lookup is shown to find the statement executed last, and the helper's parameter to keep its value. | partial. proved for a variable last assigned from a serializer before and after which it is not assigned again, for raw bytes, and for helpers whose returns serialize one untouched parameter; helpers through a variable, copies, serializers called in place, dot imports, later assignments, reassigning helpers, method helpers and foreign helpers are shown to fail |
| C79 | Literal values are documented with their JSON type | The decision of determineLiteralType is followed over all source texts, with ParseFloat arbitrary and ParseInt as a grammar, against what each kind of literal is written as in JSON. | partial. proved for decimal integers, floating-point literals and strings that do not read as values, exactly for strings; strings of digits, character literals, prefixed integers and negative literals are shown to be documented wrong |
| C80 | Map literals are documented key by key | The literal is evaluated (Ev) entry by entry; the loop is shown to keep properties, openness and schemas in step with the entries. | partial. proved for written-out map[string]T types with values resolved to their types and computed keys apart from constant ones; declared map types, declared constants as keys, strings of digits, computed keys that coincide and nested maps are shown to fail |
| C81 | The payload of a response envelope is documented with the type the route passes | Helper and constructor are executed (Ev, Run, Results); the field of the envelope is traced to the constructor argument and from there to the argument of the route, along the lookups the code makes. | partial. proved, both ways, for a helper that makes the envelope with one constructor call, neither of them assigning to its parameters, all return statements of the constructor alike; types of the same package, texts with a full stop, a second helper, reassigned parameters, early returns and later assignments are shown to be lost or wrong |
| C82 | Headers of the response are not documented as parameters | Expressions are evaluated in an arbitrary interpretation in which what is obtained from the response is part of it; the origins collected are shown to be types of parts of the receiver. | partial. proved: what is dropped is a header of the response, when variables are not assigned later and the read is not on a conversion; chains of up to eight calls and variables up to seven steps from a writer are dropped; the accepted types are characterised exactly; copies, fields, parameters, embedded writers and gin writers through a variable are shown to be kept |
| C83 | Every status a branch can send is documented | A small semantics executes the assignments of a function in any order before any return; the search is shown to leave every function it has seen covered, and executions stay within what is covered. Termination by a measure on copies; non-termination by induction on the bound. | partial. proved: constants of net/http and decimal literals are read right; statuses of a variable with two assignments or more; statuses of mappers are complete, sound and the search ends, for programs whose mappers return literals, locals and known functions; mappers that copy a variable to itself are shown to recurse for ever, and what other programs lose is shown by examples |
| C84 | The project's own routers and contexts are read for what they hand on | A semantics of calls that hand values on; invariants over the rounds show that the derived position carries the value. Groups are characterised by their keys, so a permutation of the input gives the same sorted list. | partial. proved: which parameter an argument is taken from; for plain routers and contexts the documented arguments are those that reach the framework, and chains of up to four calls are found and longer ones are not; groups are independent of map order; applying is idempotent, keeps what is configured and uses complete derivations only; which methods group routes. Programs with prefixes, several registrations per method, other conventions or overriding methods are shown to be read wrongly |
| C85 | A call through a field of a struct reaches the functions stored in it | Source expressions with types, rendered to the arguments and instances of metadata; an inductive relation says where a function is stored. Induction on expressions shows that the walk records exactly that, and the index is the sorted set of the records. | partial. proved: what is found is exactly what is stored, for programs whose function types have no name, whose values have the names of functions only when they are functions, whose lists are written as such and whose literals outside of functions state their type and fields; each function once; independent of the order of files and imports; the same for entrypoints. What other programs lose or get wrong is shown by examples |
| C86 | A route's request body comes from code the route runs | A tree of nodes with calls and arguments, a program (who calls what) and the functions a route runs. Induction over the walk: in scope means running; a relation between trees that differ laterally shows that the rest has no influence. | partial. proved for trees in which values below calls, conversions and the arguments of the registration are run, chains stay in one function and functions named like the method called implement it; below call nodes anything may be attached. Lateral attachments are shown to have no influence at all. What the excluded trees get wrong is shown by examples |
| C87 | A route is completed only by calls of its own registration | An inductive relation for the calls that continue a registration, and induction over the walk. | partial. proved: exactly the calls that continue the statement; that these are written in the function of the registration is proved where chain links are listed below their chain. An example shows that a chain inside a called function completes the outer route |
| C88 | The source view shows only files of the project and its dependencies | Paths as lists of components, the disk as a function with links, the lookup of the operating system as a walk; without links it agrees with cleaning the text, and Rel decides being below. | partial. proved for disks without symbolic links (the check compares texts, the file is opened through links: C88_symlink_escape); refusal, completeness and the window are proved there in full. C88_switch_shows_all shows that a client may lift the restriction by switching the project |
| C89 | Saving does not destroy files | A transition system of saves with check, open, write and finish steps; invariants over all executions. | partial. proved for all schedules: existing files are not altered by guarded saves; success and interruption for files only one job writes. Simultaneous saves of a new file, crashes and failing encodings are refuted (C89_race_clobbers, C89_crash_loses, C89_encode_failure_loses) |
| C90 | The command line means what the help says | The table of flags, the parsing loop, an independent grammar of argument lists; induction over the grammar in both directions. | partial. proved for all argument lists; refuted for the printed document, which is mixed with a notice and the time (C90_stdout_mixed). Profiling and the text of messages are not modelled |
| C91 | A struct is recorded as implementing an interface of the analyzed packages exactly when it does | Type expressions, their rendering and the textual normalization, against a denotation of types with aliases and a method-set relation; induction over expressions. | partial. the two lists agreeing and their order are proved for all programs; completeness and soundness for methods declared on the struct, plainly written signatures and types told apart by their names. Nine refutations show why each restriction is needed |
| C92 | The types that implement an interface of another package are found | Types as a graph (cycles allowed), the walk with its depth limit and visited set; an invariant saying every visited type is complete or four levels down. | partial. completeness is proved for interfaces named in the code, in signatures, and anywhere in types at most four levels deep, when no two referenced interfaces share a name; soundness and the order of the answer in full. Refuted for deep types and for two instances of one generic interface (C92_depth_order, C92_instance_order) |
| C93 | A documented parameter has the name the code asks the request for | Expressions with their recorded form; a run-time value relation over memory contents as specification; case analysis of the lookup. | partial. proved for names stated by an ordinary literal or a constant declared with one, and that nothing is documented for arguments that state none; multipart and file order in full. Refuted for raw literals, derived constants, package variables, shadowing names, packages whose path does not end with their name, and calls without the argument |
| C94 | A path variable a handler reads but its route does not declare is reported, and nothing else is | Go statements and expressions with their recorded form, a memory relation over paths through the handler as specification; structural induction over expressions and over paths. | partial. reports proved complete for reads in assignments of declared functions that do not copy the map, and sound when a variable holding the map holds nothing else; uniqueness and the documented parameters in full. Refuted for mount prefixes, reads outside assignments, copies, reused variables, and methods or function literals as handlers |
| C95 | Every middleware a router call applies is identified by the function it comes from | The calling function as assignments before and after the call, an origin relation as specification; the lookup is proved to find the caller’s own assignments, then case analysis on the argument. | partial. identity proved for functions, methods, calls and variables set once to a function of another package, a method or the result of a function; positions and wrappers in full. Refuted for function literals and other expressions, variables set again after the call, results of methods (receiver lost), variables holding a function or a variable, and methods named like the caller |
| C96 | The built-in patterns of each framework recognise exactly its registration calls | The patterns as text, a parser for the regular expressions they use, their denotation; a theorem that an expression without repetition denotes its finite list of words, computed by the kernel for each pattern, so that the iff holds for all texts. | partial. the calls recognised are characterised exactly for gin, echo, fiber, mux and chi, and for net/http except calls named Handle. Refuted: net/http takes any call named Handle for a route; registration methods such as gin Any/Handle/Match, chi Connect/Trace, echo Any/Match/Add, fiber All/Add are missed; gin interfaces and two-digit major versions are missed |
| C97 | Command bodies of CLI libraries are entrypoints exactly when the program uses the library | Same regular expressions with numbers as atoms; induction over the presets for prefix, idempotence and membership. | partial. proved in full for the modelled libraries; two cobra hooks (PersistentPostRun, PersistentPostRunE) are missing from the presets |
| C98 | A registration documents the verb, path and handler it registers | The stages of the extraction over the built-in patterns, with the choice of the pattern by the regular expressions of C96; one pattern applies to each call; induction over the chain for gorilla/mux. | partial. proved for verb methods with path and handler, constant verbs of chi Method, mux chains of any order and length, net/http patterns with and without verb. Refuted: gin and fiber document a middleware given before the handler; only the first verb of mux Methods is documented; a mux chain whose handler has no package (composite literal) loses path and handler; chi Method with a verb that is not constant or a raw string is documented as POST; chi Handle, which serves all verbs, gets the verb of the handler name |
| C99 | A wrapped handler is documented as itself | The expression as a tree; a relation says which handler an expression serves through how many layers; induction over that relation for the search with its bound, and over the layers for the loop. | partial. proved for up to eight layers, where a plain function name must be the only argument of a function known to take and return the same type, and for factories, adapters and ambiguous calls. Refuted: wrappers of libraries around a plain function, middleware with a second parameter, middleware around a factory, a conversion of a call, more than eight layers, and an adapter between two types of the same name, taken for middleware |
| C100 | A body held in an interface variable is documented as what it holds | A small language of assignments, branches and loops with a relation for its runs; what the runs can have in the variable comes from an assignment in the text (induction over runs), and the recorded assignments are exactly those (induction over the program). | partial. proved for variables of functions, with an interface of the analyzed packages and assignments of concrete types only. Refuted: assignments of an interface type are passed over; calls of several results are documented as a tuple; nil is listed as a type; assignments in methods are not found, and those of a function of the same name in another package are taken instead; any and interfaces of libraries are not looked into; assignments after the call are listed |
| C101 | The report of framework dependencies lists what the imports say | The import graph as lists; the depth-first search with its visited set is complete because what it has visited without a result is closed under imports (induction over the number of packages left); the growing list of imported packages by an invariant over the loop. | partial. proved for the direct and the dependent packages, for the direct imports of framework packages, for no package twice and for what is analyzed. Refuted: two runs can report different packages, packages more than two imports away are left out, and any path containing stub, mock or fake counts as a test package |
| C102 | The overview counts what is in the document | Schemas as a nested inductive type; references found by mutual induction against a relation for being inside; each count by splitting the operations into disjoint lists; determinism from permutations of what is counted and a total order on the rows. | partial. proved for the tables, states, score, warnings, security counts, bodies by status and the interfaces counted, all independent of map order. Refuted: the issues of one operation come in map order; bodies that resolved to a bare object count as fully resolved because the issue for them is never raised; 199 of 200 clean operations show as 100 percent; methods are counted twice among the functions; ambiguous interfaces of packages with the same last path element share a row whose number depends on the run |
| C103 | The head of the document says what configuration and options say | Record update functions; each field against a separate "first one given" function; the round trip by non-emptiness of what the first run filled in. | partial. proved for every field, with the round trip through the written configuration. Refuted: a document without a contact in its configuration always names one, by default the author of the tool; without a licence it has a licence object with an empty name, which OpenAPI does not allow; an explicit option never overrides the configuration and contacts are not merged field by field; the description always ends with the notice of the tool unless the configuration gives one; used as a library the mapping drops contact, licence and terms when title, description and version are empty |
| C104 | A security configuration with a mistake is refused, and one without says something | The check as the first failing test; mistakes as separate inductive relations; the effect through the resolution proved for C13 to C15. | partial. proved exactly for the check, the error reported and the ways in; for the effect, of mappings whose requirements are not empty. Refuted: a mapping to an empty requirement is accepted and silently hides the middleware; mappings given by the user take no precedence over built-in ones, although they are put first for that purpose; schemes that are defined nowhere are accepted |
| C105 | Every recognised registration makes its command worth expanding | The test against a separate relation between pattern and call; implication from the recognisers of C25/C96; composition with the exact characterisation of expanded commands (C24). | partial. exact for the test itself; that recognised calls pass it is proved for patterns with a call expression and calls whose receiver was not replaced by a concrete type. Refuted otherwise: a call recognised by the type it was written on, and a call recognised by a pattern without call expression, do not count, so a command with only such registrations is not expanded |
| C106 | The tree of packages accounts for every drawn package | The entries of the tree as an inductive relation; induction on the depth left; sums over disjoint prefixes. | partial. counts, names, children, uniqueness and order are proved for every input; that every package has an entry is proved for packages at most 20 levels below their top entry, and refuted beyond (C106_deep_lost) |
| C107 | A status handed to a constructor is the one documented | A small language with branches, calls and literals with its own semantics; what the code records is computed from the program; the found argument is compared with the value the field has after any run. | partial. complete and true for plain constructors and a last assignment outside of branches; refuted for two branches with a constructor each, for constructors that replace a status and for constructors with several return statements. Assignments to the field itself and calls through method values are not modelled |
| C108 | Bodies without a status are taken from closest to the handler | Breadth first search with the usual invariant (numbers of the queue ascend and differ by at most one); composition with the exact pairing of C10. | partial. exact; distances are assumed below 2^20 where they are compared with functions the handler does not reach. Not proved, because it is false: that all bodies sent without a status are documented (C108_helper_lost) |
| C109 | The configuration that is written repeats the run | The written lists and the filters of the run have the same members; the decision of C30 depends only on members. | partial. exact for what is written; replay is proved for runs without automatic inclusion of framework packages and without a configuration file, and refuted for both |
| C110 | A handler value is documented with the method the framework calls on it | The expansion is modelled with fuel; implementers are concrete, so two steps suffice. Keys split back to the type they name because type names have no dot. | partial. exact for what is recorded, and the method that runs is found when the type declares it; refuted for methods of embedded types |
| C111 | The type of a selected field is the type of the field Go selects | Fields with their depth as an inductive relation; the search is modelled with fuel and shown to end for every embedding without cycles, by a rank. | partial. own fields and existence are exact; the choice is proved when all fields of the name have one type and no struct embeds itself, and refuted otherwise |
| C112 | A part of a path is documented with the value it has | Runs bind the parameters of the enclosing function; the value of a part in a run is an inductive relation; every way of resolving a part is shown to give that value. | partial. the agreement of callers is exact; values are right in every run that fits what was recorded; refuted for fields of embedded structs and for a variable of the caller that has the name of another parameter |
| C113 | The trace of an operation starts at its handler | Declarations as an inductive relation; the nearest literal by an invariant of the loop; maps are lists in any order, so the theorems hold for all of them. | partial. proved when the name is unique in the package; refuted for equal names on different receivers, for the order, for handlers that call nothing, and for packages with a version in the last element |
| C114 | A body that is the result of a call is documented with the type the called function returns | Declarations as a relation on packages, files and types; the documented type is traced back to its source; the first return statement is all that is recorded. | partial. proved when the functions and methods of that name in the package have the same result, and for functions whose returned values have one type; refuted for equal method names on two types, for several return statements and for methods that return an interface |
| C115 | The folder picker offers the folders that are there | The comparison is proved to be a strict weak order, so that a sort guarantees its result; the theorems hold for every sort with that guarantee. | partial. proved for folders that are not links; links to folders are not offered |
| C116 | The trace of a route shows the calls below it | Invariant of the queue: every item is a node of the tree below a function that is reached; completeness by a set of finished nodes that is closed under children; the loop ends because the queue shrinks. | partial. edges and functions proved for all trees; completeness proved when a key of the tree stands for one call from one function, refuted otherwise; depth is an upper bound of the distance, not the distance |
| C117 | The report about an endpoint repeats what is documented | Operations of a document as a relation with one case for each method; maps are lists in any order, and independence is stated for permutations; the sort is any sort. | partial. proved but for contents with several types and no JSON, whose report depends on the order of a map, and for parameters of the path that the operation replaces, which are listed twice; short names collide for types with underscores |
| C118 | Where a variable comes from does not depend on what was asked before | The two caches are part of the state; an invariant says that they hold what would be found without them, and two states with the invariant give the same answer, by induction on the bound. For termination, the questions a question can lead to are a finite list, of which each step uses one. | partial. repeatability and termination are proved in full; what a parameter, a copy and a result lead to is proved for functions called once, for local variables of functions that are not called and for results declared in the first file of the package; a method declared in a later file is not found, and a parameter is traced to the first call alone |
| C119 | Which call a variable is linked to does not depend on the order of maps | What an edge asks for is a relation; what is found under a key is looked up in the list of all writes. For the order, programs are related map by map by permutation; for the sorted list, the comparison is antisymmetric on different keys, so any two sorts of any two orders agree. | partial. proved but for several calls on one variable, of which only the last in the call graph is linked |
| C120 | The editor suggests what was analysed, each name once and in order | Maps are lists in any order and sets lists to which what is missing is added; each list is characterised by membership, absence of duplicates and order, and a list with these is unique. | proved. each list is proved to hold exactly the names it should, each once and sorted, and to be the same for all orders of maps and all sorts |
| C121 | A redacted export does not name the module | ReplaceAll is modelled character by character; if the placeholder and the path cannot overlap, no occurrence is left, by induction on the text. The export is a list of parts with a character after each that is in no module path, so an occurrence is in one part. | partial. proved for module paths that cannot overlap with the placeholder and have no spaces, line breaks or backquotes; names of components have the module path with underscores and are not redacted, and some module paths are put together again by the replacement |
| C122 | The overview lists each handler that serves several methods | The methods are a fold that adds what is named and missing, so they are the methods served, each once. Rows stand beside their functions, which a permutation keeps. Two sorted lists of the same rows are equal if no two names are. | proved.  |
| C123 | For a call, the declaration of the function called is read | The map is the list of declarations in reverse order with their keys. Names have no dots, so the text of a key is split at its last dots in one way; the first entry for a key is the last declaration with it. | partial. proved if no package path is that of another one, a dot and a name, and for types without type parameters; methods of generic types are never found |
| C124 | A redacted export of an endpoint does not name the module | As C121: the export is a list of parts, each of which is redacted, a field named in the statement or fixed words, with a character after it that is in no module path. What is shown is found as a part or as neighbouring parts. | partial. proved for module paths that cannot overlap with the placeholder and have none of the characters between parts; names of components have the module path with underscores and are not redacted |
| C125 | The interface shown behind a call is one that the type implements | What the index gives at a name without dots and at a qualified name is proved by induction over the types that are added; the loop over the interfaces keeps the first of the largest. | partial. proved if no other type has the name of the receiver; types are looked up by their bare names, so with two types of one name the order of the maps decides |
| C126 | The position that is recorded is where the node is written | Invariant of the cache over all histories: what is cached is an index at which the pool has the text of the place. The pool only grows, by C34, so the index reads the same later. | partial. proved for histories with one file set and calls one after another; the cache does not know file sets |
| C127 | At a call of an interface the trace goes on in what implements it | Membership in the result unfolded through the maps; the last dot divides path and name because names have none. | partial. what is recorded as implementing is taken as given; the data shown for each method is not modelled |
| C128 | The configuration that is suggested is the first that says something | Both loops are one search over the list of places; the test of a file is that its configuration, with what is not looked at erased, is not that of an empty file. | partial. a title and the sections that the program looks at; the rest of the description, entry points, handler methods and the contexts of requests and responses alone are not enough |
| C129 | The version shown is that of the build | Fold over the settings: which flags it sets and which value the one setting of a key leaves. Then the cases of the version. | partial. a build of changed sources without a version shows the placeholder with the mark; the settings have each key once |
| C130 | The file read for a function called is the one that declares it | Induction over methods, types and files: what a loop returns and what the two fallbacks hold when it returns nothing. | partial. names that are declared; every file is taken as parsed, and the sorting of files and types is not modelled |

## What is modelled

| module | code |
|---|---|
| RefsModel | internal/spec/refcheck.go over the types of openapi.go: heap of schemas, walk, repair, report |
| PathsModel | path joining, mounting, conversion to templates, ServeMux patterns (extractor.go, mapper.go, pattern_matchers.go) |
| ParamsModel | operation parameters, form parameters, concatenated path arguments (mapper.go 420-466, pattern_matchers.go 72-148) |
| SubsumeProps | collapse of duplicate discoveries (extractor.go) |
| ResponsesModel, ResponsesDoc | status/body pairing, preferences, responses section (extractor.go 1343-1652, mapper.go 636-878) |
| SecurityModel, SecurityDoc | mapping, three states, deduplication, reconciliation, presets (security.go, config_security.go, extractor.go 651-800, mapper.go 337-378) |
| MiddlewareModel | looking through wrappers with memo and on-stack guard (reachability.go 94-144) |
| ConfigModel | framework detection, composition, merging (core/detector.go, core/frameworks.go, config_merge.go, engine.go 613-668) |
| SccModel | iterative Tarjan condensation (metadata/scc.go) |
| ReachModel | reachability pruning and entrypoint gate (prune.go, route_reach.go, reachability.go, entrypoint_roots.go) |
| LazyModel, LazyBudget, LazyInv | on-demand tree expansion, budgets, statistics, reordering (lazytree.go) |
| TypeModel, TypeCanon | parsing, rendering and canonical keys of type strings (internal/typemodel) |
| RegexModel, GitignoreModel | ignore patterns translated to regexes and their matching (pkg/patterns/gitignore.go) |
| FiltersModel | package and file filters, repeated runs (engine.go) |
| MethodsModel, MethodsInfer | method dispatch branches, verb lists, inference from names, operations and their ids (both method_dispatch.go, pattern_matchers.go, mapper.go) |
| IdsModel | string pool, call identifiers (types.go 69-131, 1424-1490; metadata.go 33-142, 413-425) |
| CallsModel | call graph construction (metadata.go 1503-1846, analysis.go 228-300) |
| LitModel | enclosing functions and identities of literals (analysis.go 66-180, position.go 90-200) |
| IndexModel | metadata lookups and their indexes (types.go 267-845) |
| ConcModel | regex, match and type caches and the string pool under an arbitrary scheduler (regex_cache.go, typeref.go, types.go 81-98) |
| TagsModel | struct tags, JSON names (mapper.go 1749-1777, helpers.go 103-117) |
| ValidateModel | validate tags, `dive`, keywords (mapper.go 2106-2498) |
| EnumModel | enums from constants (mapper.go 2500-2778, 3455-3468; metadata.go 1210-1271) |
| NamesModel | component names and the component table (mapper.go 49-57, 1040-1093, 3450-3454) |
| ScopeModel | pattern scopes, receivers, call/mount/parameter patterns (call_scope.go, recv_forms.go, MatchNode methods) |
| MappingModel | configured type mappings and third-party types (external_types.go 36-229) |
| GenericsModel | bindings of type parameters along calls (metadata.go 1897-1940, lazytree.go 1022-1048, tracker.go 142-178, pattern_matchers.go 1306-1332) |
| UiModel | generation slot, project switch, publication and replies of the UI server under an arbitrary scheduler (cmd/apispecui/main.go 356-384, 803-822, 838-1117, 1197-1207) |
| DiagramModel | diagram distances, node orders, filters, pages, page cache, package view, drawing of the call graph, project switch under an arbitrary scheduler (diagserver/server.go 130-194, 325-425, 635-741, 898-1269; visualization.go 127-577, 1022-1095) |
| InsightModel | endpoint metrics: both walks over the call graph, call sites, path count and sample, grade, trace graph (insight/metrics.go 24-30, 110-129, 163-256, 296-397, 710-748, 855-1003; argument counts and display metadata left out) |
| SchemaGenModel, SchemaCollectModel | Go types to schemas: mapping, declarations, fields, aliases, used types, collection from routes, components, lookup by name (mapper.go 84-98, 157-165, 1024-1303, 1371-1733, 2783-3303, 3437-3454); generic instances, enum and validation decorations, embedded fields left out |
| HandlerDocModel | summaries and descriptions from doc comments: annotations, first sentence, lookup of the handler's comment (mapper.go 410-419, 1826-1959, 1982-2083; extractor.go 1970-1984, 2088-2111; field_resolver.go 198-215); go/doc Synopsis is a parameter |
| ProvenanceModel | where a decoder reads from and an encoder writes to: body_source.go, response_dest.go, the lookup of assignments (extractor.go 1969-2070) and of parameters (2709-2780); TraceVariableOrigin and the configured regular expressions are parameters |
| EmbedModel | fields of structs and embedded types to properties (metadata.go processStructFields, buildAnonStructType; mapper.go generateStructSchema); tags are reduced to what TagsModel reads, ast.IsExported is a parameter |
| AnonStructModel | inline structs read back from their text (mapper.go 3268-3432); ASCII blanks only, strconv.Unquote is a parameter |
| WriteSinkModel | what serialized bytes were made of (write_sink.go; metadata.go 1310-1405, analysis.go 225-300, expression.go 107-285) |
| MapLiteralModel | literals and map literals sent as a response (map_literal.go 53-135, extractor.go 2205-2306, context_provider.go 122-160); ParseFloat and Unquote are parameters, other expressions are opaque |
| EnvelopeModel | payload types of response envelopes (wrapper_specialisation.go 62-413); rendered texts of variables and calls are given |
| HeaderSideModel | which side a header is read from (param_origin.go, extractor.go 3402-3416, config.go 505-507) |
| StatusModel | statuses of branches, variables and error mappers (schema_mapper.go 163-258, extractor.go 2618-2667, 3047-3113, mapper_field_status.go); constructor fields are a parameter |
| WrapperModel | the project's own routers and contexts (wrapper_detect.go, wrapper_params.go, engine.go 1486-1565); what a configured pattern matches is arbitrary |
| FuncFieldModel | functions stored in struct fields (func_field_dispatch.go); what an entrypoint pattern matches is arbitrary |
| RouteWalkModel | the walk below a registration: gates for request bodies and completion, response candidates and their frames (extractor.go 1108-1288, 1572-1597; request_provenance.go); the tree is arbitrary, what patterns find at a node is a field of the node, children are never nil |
| SourceModel | source view and project switch of the web UI: positions, path cleaning, Rel, module root, windows (cmd/apispecui/main.go 554-570, 629-645, 803-821, 1777-1864; insight/export.go 249-331); paths as component lists, files as lists of lines, lookups bounded by fuel |
| SaveModel | saving and writing as interleaved steps (cmd/apispecui/main.go 1975-2021; cmd/apispec/main.go 506-560); directories, permissions and short writes only as nondeterminism |
| CliModel | flags, their parsing and what the command does (cmd/apispec/main.go 192-357, 483-634); strconv.ParseInt, the engine and the encoders are parameters; profiling left out |
| ImplModel | interface implementation among the analyzed packages (internal/metadata/metadata.go 272-328, 669-732, 1105-1121, 2009-2051; analysis.go 25-67); character classes of Unicode are parameters |
| ExtImplModel | collecting interfaces of other packages and their implementers (internal/metadata/metadata.go 2053-2205, types.go 648-696); go/types' Implements is a parameter, types are nodes of a graph |
| ParamNameModel | the name and place of a parameter (internal/spec/extractor.go 3123-3141, 3441-3519; internal/spec/context_provider.go 61-121; internal/metadata/metadata.go 1210-1271; internal/metadata/expression.go 631-655); the trace through wrappers is a given expression |
| PathVarModel | path variables read from a map (internal/spec/extractor.go 1738-1986; internal/metadata/metadata.go 1148-1190, 1340-1440; internal/metadata/expression.go 41-110, 195-350); regular expressions and reachability are parameters |
| MwIdentModel | identity of middleware arguments (internal/spec/security.go 28-239; internal/spec/pattern_matchers.go 883-933; internal/metadata/metadata.go 1375-1398); type information is part of the recorded arguments |
| PresetModel | built-in route, mount and entrypoint patterns (internal/spec/config_chi.go, config_gin.go, config_echo.go, config_fiber.go, config_mux.go, config_http.go, config_entrypoints.go 43-176; recv_forms.go 67-94; pattern_matchers.go 430-449); of Go’s regexp, the syntax these patterns use |
| RouteExtractModel | what a registration call says about its route (internal/spec/pattern_matchers.go 460-646; extractor.go 519-536; parameters of the built-in patterns); rendering, path resolution and tracing of arguments are given |
| UnwrapModel | the handler under conversions and wrappers (internal/spec/pattern_matchers.go 1492-1730); whether a name is a declared function, and the recorded signature of a callee, are given |
| BodyTypeModel | the type of a body held in an interface variable (internal/spec/extractor.go 1970-1984, 3144-3264; handler_value.go 35-86; pattern_matchers.go 1117-1150, 1271-1301; internal/metadata/metadata.go 1320-1447; analysis.go 319-372); which recorded types are interfaces, and the argument bound to a parameter, are given |
| FwDepsModel | the report of framework dependencies (internal/metadata/dependency_analyzer.go 47-82, 178-183, 256-606; internal/core/frameworks.go 79-160; internal/engine/engine.go 1418-1444); lower-casing is given; external packages not included (the engine's setting), a module path is known; the functions and types counted per package are left out |
| OverviewModel | the overview (internal/insight/overview.go 250-925); the detail texts are shortened to the place they name; finding the marker of made-up schemas in a description is given; exact instead of floating-point percentages |
| HeadModel | the information about the API (internal/engine/engine.go 346-392 without the limits, 771-800, 918-934; internal/spec/mapper.go 284-311; cmd/apispecui/main.go 928-970); servers, security, tags and documentation are opaque values |
| SecCheckModel | the check of the security configuration (internal/spec/config.go 584-655), loading (internal/spec/mapper.go 175-190) and the security part of cmd/apispecui/main.go 1527-1627; whether an expression compiles and what is white space are given; the call filters of a pattern, which the check ignores, are left out |
| GateModel | the test for registrations before extraction (internal/spec/entrypoint_roots.go 162-247); regular expressions are given functions |
| PkgTreeModel | the package tree of the diagram server (internal/diagserver/server.go 427-555, 572-591, 666-682) |
| CtorModel | statuses stored in a field by a constructor (internal/spec/extractor.go 2819-2868, 2895-2936, 2953-3023) |
| NearModel | distances from the handler (internal/spec/extractor.go 1492-1529) |
| EffectiveModel | patterns of the written configuration (internal/engine/engine.go 729-743, 803, 918-933, 979-1006) |
| HandlerValueModel | handler methods of a value given as a handler (internal/spec/handler_value.go 88-138, 163-171; internal/spec/field_resolver.go 198-216; internal/metadata/types.go 648-695) |
| FieldLookupModel | type of a selected field from the recorded structs (internal/spec/field_resolver.go 102-157, 198-216) |
| OperandModel | values of the parts of a path (internal/spec/pattern_matchers.go 80-94, 149-358) |
| TraceRootModel | start of the trace of an operation (internal/insight/endpoint.go 241-437, 459-487) |
| CallBodyModel | calls as bodies (internal/metadata/types.go 2017-2073, metadata.go 1471-1501, internal/spec/extractor.go 1970-1984, 2240-2262, 3144-3148, 3311-3338) |
| BrowseModel | folder picker of the UI (cmd/apispecui/main.go 1282-1368) |
| SubtreeModel | trace of a route from the tree of calls (internal/insight/metrics.go 440-613) |
| EndpointModel | report about an endpoint (internal/insight/endpoint.go 87-105, 136-186, 492-500, 544-552) |
| OriginModel | origin of variables (internal/metadata/analysis.go 439-683) |
| LinkModel | links from variables to calls (internal/metadata/metadata.go 449-517, internal/spec/assignment_order.go 41-58) |
| SuggestModel | suggestions of the editor (cmd/apispecui/main.go 1407-1517) |
| ExportModel | export of open issues (internal/insight/export.go 26-120) |
| VerbsModel | handlers that serve several methods (internal/insight/overview.go 518-557, 898-903) |
| FuncMapModel | map of declarations and its use for calls (internal/metadata/metadata.go 528-574, 1689-1697) |
| EndExportModel | export of one endpoint (internal/insight/export.go 126-244; internal/insight/metrics.go 1005-1013) |
| BehindModel | interface behind a call of a trace (internal/insight/metrics.go 778-853) |
| PosModel | recorded positions (internal/metadata/position.go 41-87, 176-196) |
| ImplsModel | implementations of an interface in a trace (internal/insight/metrics.go 672-708) |
| PickConfModel | the suggested configuration (cmd/apispecui/main.go 731-790) |
| VersionModel | the version shown (cmd/apispec/main.go 46-116) |
| FnFileModel | file of a function called (internal/metadata/metadata.go 1780-1831) |

## What is not modelled

* Loading and type checking of Go source (golang.org/x/tools), YAML/JSON encoding, the file system, HTTP transport, command line parsing.
* Extraction of response, request and parameter fragments from the AST: the fragments are inputs of the models above.
* Assignment tracking, argument flow and interface resolution in internal/metadata beyond the call graph itself.
* Rendering of diagrams and HTML.
* Wall-clock time, memory and performance.

## How to read seeded/LOG.jsonl

* `failed` lists declarations that no longer check after the edit, with the original proof scripts. A theorem can be in the list because its script broke although its statement is still true of the edited program, so an entry shows that the theorem does not survive the edit unnoticed; it does not by itself show that the statement is false there. Entries whose claim says "harmless" or "none" are edits under which the claim stays true; they are no evidence for the theorems they list.
* An entry with a non-empty `tightened` is an edit that first survived. Up to line 643 the line of that first attempt was replaced by the line of the rerun after tightening, so the log up to there contains no entry with an empty `failed`; that does not mean that every edit was caught at the first attempt. From line 644 on both lines are kept.

## Where the code disagrees with a property

Each item is proved in Lean by a theorem exhibiting the disagreement (named in MANIFEST.json under the property).

* C05: a mount prefix equal to the end of what is accumulated is lost. C06: conversion of a path with nested braces is not idempotent. C07: repeated placeholders, non-identifier names and names with capitals are declared wrongly or not at all. C43: a required form field can be listed twice; a file field can lose its format.
* C09: parameters and the public mark of a collapsed duplicate are lost. C10: an unreadable status write leaves the previous status in force. C12: ties between equally concrete candidates, and request bodies, depend on discovery order.
* C15: alternatives, clashing scopes and wrappers weaken the emitted requirement. C16: names containing the separator are confused. C17: a scheme nobody defines stays dangling. C48: remembered answers taken inside a recursion are incomplete.
* C21: patterns that differ only in the exact receiver type are taken for duplicates. C25: a chained call can repeat along child lists. C26: the children limit drops calls silently; a leaf can raise a false alarm.
* C28: canonicalisation of malformed text is not idempotent; function types as arguments do not survive. C29: seven deviations from gitignore (doubled `**`, leading slash, `[!`, classes crossing `/`, `]` first, line breaks). C30: cgo files escape filters; patterns of a configuration file are ignored. C54: a second run on one engine analyses other packages when framework inclusion is on.
* C31: responses after a method switch, helpers in the same file and fall-through are attributed wrongly. C32: TRACE and CONNECT are lost. C55: one handler at two paths repeats its operation id.
* C35: methods of generic types do not strip; a copied call keeps a stale id. C57: curried calls, wrong parents, and a crash on a chain that starts with a conversion. C58: depth never exceeds 2. C60: directories starting with two dots; module files named like dependency files. C56: `FunctionAnywhere` and the roots go stale. C36: the string pool has no lock.
* C49: another key ending in `json`, names with spaces, `-,`, interpreted literals. C41: a tag after `validate` leaks into it; `min:`/`max:` inside any tag is read; `oneof` on an array without element schema crashes; zero bounds vanish; `dive` on maps is dropped.
* C42: blocks mixing types, conversions, blank constants, long texts, foreign types of the same name; the component of a declared type gets no enum. C46: names that differ only in replaced characters collide and one schema is lost; pointer arguments of generics make illegal names. C51: receiver filters of a scope ignore the receiver as written. C52: short names match inside instances and channels. C61: project types called uuid.UUID or decimal.Decimal are taken for the well-known ones.
* C45: a type parameter forwarded under its own name sends resolution into an endless loop; a binding of an unrelated outer call is taken; composite uses are not substituted.
* C38: a forced request can be overtaken by the result it superseded; a project switch (also by a request that is refused) makes a foreign spec the spec of the new project; configuration, spec, result and progress can come from different runs; a run whose stop was confirmed can publish. C62: a failure is always answered as a stop and its error is never shown.
* C39: the more-pages flag is wrong from the second page on; a parent is repeated on every page and its edges are missing; with two `main` nodes the order changes between requests; a huge page number crashes. C63: a cycle without an entry function is never shown. C64: filters `a b` and `a`,`b` share a cache key; a switch during a load is lost; a drawing of the old project can be stored for the new one. C65: functions without receiver, signature or type arguments pass those filters. C66: which neighbours are added depends on the order of edges. C67: a function first drawn as the parent of its literal loses its calls; a literal can be drawn in a method of another type.
* C40: the number of call paths is wrong for recursive programs; a walk can be reported as cut with nothing missing; an implementation that is also called directly is reported too deep; functions of the project named like builtins (`delete`, `close`, …) are dropped. C68: the order of the edges changes from run to run.
* C44: a self-referential type whose name ends in `_nested` sends the generator into an endless loop; the element of an array and a mapped scalar are referred to without a component; a recursive body given twice refers to itself; a body `[][]User` leaves a component that is an array.
* C69: arrays, pointers to slices and deeper slices of an alias lose dimensions, `[16]byte` is documented as a string and `[]Octet` as numbers; an alias of another package, a bare name and a name outside the scanned packages are documented as a different type of the same name; a struct literal with a map field is documented as a map; a mapping of an alias is ignored in fields and elements.
* C70: the second sentence of Chinese or Japanese text and the word after a sentence with a no-break space are lost. C71: a variable, a field of another package's type, an interface value and a method of a type called like its package are documented with the comment of a namesake.
* C72: a body that is read or limited by a function first (io.ReadAll, io.LimitReader) is lost; an assignment after the call decides; variables of a method that is itself the handler are not followed, or are those of a function of the same name in another package; the variable of a helper called is found first.
* C73: a wrapper with a keyed field is judged by the type of the field instead of its value (response lost, or a recorder taken for the response); w = wrap(w) loses the response; so does a writer kept in a field; an assignment after the call decides. C74: the ninth helper is not followed, and a parameter called like one of the function that made the decoder is taken for that one.
* C75: a nil slice, map or pointer is written as null, which no generated schema admits; a value in an interface need not be an object but is documented as one. C76: fields promoted from embedded structs are missing, and so are embedded structs with a json name; two fields of the same name are documented as the last of them, where encoding/json writes neither or prefers the tagged one; a variable of an inline struct type that embeds T is documented with a property T.
* C77: an embedded generic type whose arguments contain a blank is documented as a property with half of its text for a name.
* C78: w.Write(b) after b := encode(v), after out := b, with a one-result serializer called in place, or with a dot-imported json.Marshal documents bytes; an assignment of b after the Write, a helper that reassigns its result or its parameter, a method helper with the name of a function, and a foreign helper with the name of any function document the wrong type; a helper whose first return serializes a local variable is not followed.
* C79: the strings "404", "true", "nil", "NaN" are documented as integer, boolean, object, number; a character literal and an integer written 0x1f, 0b1 or 0o7 as a string; -5 as a pointer to a type called 5.
* C80: gin.H{...} and other declared map types, and literals whose keys are declared constants or raw strings, are not read key by key; a computed key equal to a constant one breaks the documented schema; nested map literals are documented by their type, so that {"a": {"a": 1}} does not conform.
* C81: a payload of a type of the same package is not documented; respond(w, "Done.") documents the payload as a type called "Done."; a second helper in between and a constructor with an early return lose the payload; a helper that assigns to its parameter or to the envelope later is documented with the wrong type.
* C82: h := r.Header; h.Get(k); h = w.Header() loses the parameter, and so does a read on a conversion that follows a call on the response writer; a copied header variable, a header in a field or a parameter, a writer that embeds http.ResponseWriter, and h := c.Writer.Header() in gin are documented as request headers.
* C83: a mapper that contains api := api (or swaps two variables) and returns it makes the analysis recurse without end (stack overflow); the status of parameters, package variables, map elements, methods, field assignments and unkeyed literals of types of other packages is lost without a default, or read from a type of the same name; code += 4 documents a status 4, 0404 is read as 404, an argument of a call is taken for its status, and a status that every branch sends is documented as default or not at all.
* C84: a helper that adds a prefix to its parameter passes for a wrapper and is documented with the wrong path; only the first registration in a method counts, in the order of the calls; any parameter mentioned in an argument counts as handed on (choose(flag, pattern)); chains of five calls, or four assignments, are lost; a fixed verb in a method not named after it is lost; the module prefix also matches packages whose name only starts alike; a reader that also writes a status on failure is lost, depending on the order of the two calls; rounds stop when no new method was found, so OK(v) over JSON(status, v) over encode(v) is lost and a second run on the same configuration finds more; a method that decodes and answers hands only the answer on; overriding a method of an embedded type makes the result depend on map order; embedding from another package is not followed; a route group takes its first string for the prefix, any call of the name of its function parameter for a call of it, and is lost when the function is handed on or has a named type.
* C85: fields of a named function type hold no functions for the walk; conversions, elements of maps and of named slice types, and literals thirteen levels deep are lost; at package level, in methods and in returns only literals that state type and field count; there a type whose package path has one element and a function whose package is not named after its path are lost, and of two packages of the same name the first in the alphabet is taken; a variable, a field or a method without calls that has the name of a function of the package is taken for that function, which the comment of functionKeysOfValue excludes.
* C86: another function with the name of the method called is taken for its implementation, so the body of a handler `OrderHandler.Create` seen below a call of `Service.Create` is documented for `UserHandler.Create`; a second registration chained to the first hands on the body of its wrapped handler; a handler passed to a middleware by name, `mw(createUser)`, loses its body (only calls and conversions are looked through); the order of the tree decides between two resolved bodies (`C86_same_name_leaks`, `C86_chained_registration_leaks`, `C86_wrapped_name_lost`, `C86_order_decides`).
* C87: the calls of a function are listed one beside the other, so a fluent chain inside the project's own router completes, and overwrites, the route registered through it (`C87_inner_chain_completes`).
* C10: functions entered through arguments only share one frame, so a status set in a middleware literal can be paired with a body of the handler it wraps (`C10_argument_frames_merge`).
* C82: what a variable was assigned is looked at only when an even number of calls stands between the variable and the read: `h := w.Header(); h.Clone().Get(k)` documents a parameter, `h.Clone().Clone().Get(k)` does not (`C82_chain_variable_kept`).
* C88: with symbolic links the source view shows files outside: a link in the project is followed, and `link/../file` is checked by its text but opened beside the directory the link points to, while the answer names a file that need not exist (`C88_symlink_escape`); any client can switch the project to `/`, after which every file is shown (`C88_switch_shows_all`); a blank line asked for alone is "not available" (`C88_blank_line_not_found`).
* C89: two simultaneous saves of the same new file, neither told to overwrite, both succeed and leave a mixture (`C89_race_clobbers`); files are emptied before they are written, so a crash loses the old contents (`C89_crash_loses`); the command empties its output file before it encodes the document (`C89_encode_failure_loses`).
* C90: the copyright notice and the elapsed time are printed on the same stream as the document, so `apispec > openapi.json` is not JSON (`C90_stdout_mixed`); flags after the directory are silently ignored, so `apispec ./api -o spec.yaml` prints (`C90_after_directory_ignored`, `C90_flag_after_directory`).
* C91: which struct implements which interface is decided by comparing texts: types of one name in different packages are confused (`C91_same_name_invented`), results written `(a, b int)` count as one (`C91_shared_result`), `any` and `interface{}` differ (`C91_any_missed`), channel directions are dropped (`C91_channel_invented`), nested function results are ambiguous (`C91_function_invented`), generic types of the own package are spelled differently (`C91_generic_missed`); promoted methods, methods of named non-struct types and embedded interfaces are not seen (`C91_promoted_missed`, `C91_named_missed`, `C91_embedded_wrong`).
* C92: a type inside a type of five or more levels is looked into or not by the iteration order of a Go map, because it is marked as seen at the depth limit (`C92_depth_order`); two instances of one generic interface share a key and the last one visited wins (`C92_instance_order`). Both make the generated document vary between runs.
* C93: the name of a parameter is wrong for a literal in backquotes (`C93_raw_wrong`), a constant defined by another constant or by concatenation (`C93_derived_constant_wrong`), a package variable, set later or not at all - then the first string interned by the analysis is the name - (`C93_variable_guessed`), a local variable spelled like a package-level name (`C93_shadow_wrong`), a constant of a package whose import path does not end with its name (`C93_version_wrong`) and a call without the argument, which is documented with an empty name (`C93_no_argument`).
* C94: a variable declared in a mount prefix is reported although the documented path declares it (`C94_mount_prefix_reported`); reads in return statements, call arguments and blank assignments are never reported (`C94_use_missed`), nor are reads through a copy of the map (`C94_copy_missed`) or in handlers that are methods or function literals (`C94_method_missed`); a variable that once held the map is taken to hold it for ever (`C94_reused_reported`).
* C95: function literals and other expressions used as middleware are dropped without a report (`C95_anonymous_dropped`); an assignment after the call decides which middleware a variable is (`C95_later_assignment`); a variable holding the result of a method loses the receiver (`C95_receiver_lost`); a variable holding a function is identified by its own name (`C95_variable_name`); a method with the name of the calling function in an earlier file supplies its variables (`C95_method_confused`).
* C96: with the net/http configuration any call named `Handle`, on any type, is taken for a route (`C96_http_handle_anywhere`); gin `Any`, `Handle`, `Match`, chi `Connect`, `Trace`, echo `Any`, `Match`, `Add` and fiber `All`, `Add` are not recognised (`C96_methods_missed`), nor are calls through gin’s interfaces (`C96_gin_interfaces_missed`) or major versions from 10 on (`C96_versions_missed`). chi’s verb pattern also takes any method whose name ends in a verb (`C96_chi`).
* C97: cobra’s `PersistentPostRun` and `PersistentPostRunE` are never entrypoints (`C97_cobra_hooks_missed`).
* C98: `r.GET("/x", auth, h)` in gin and fiber documents `auth` as the handler (`C98_middleware_documented`); gorilla `Methods("GET", "POST")` documents only `GET` (`C98_second_verb_dropped`); `r.Handle("/x", &H{}).Methods("GET")` loses path and handler, because the package of a composite literal is empty and the next call of the chain begins the route afresh (`C98_chain_reset`); chi `Method` with a variable or a raw string as verb is documented as POST (`C98_chi_variable_verb`, `C98_raw_verb`); chi `Handle` gets a verb guessed from the name of the handler, marked as certain (`C98_handle_guessed`).
* C99: `withAuth(db, getItem)`, `gin.WrapF(getItem)` and `withAuth(h.Create())` document the wrapper as the handler (`C99_two_parameters`, `C99_library_wrapper`, `C99_wrapped_factory`); `http.Handler(withAuth(getItem))` documents the conversion (`C99_converted_call`); an adapter `func(Handler) http.Handler` of a type also named Handler is taken for middleware (`C99_same_name`).
* C100: `a, err := load()` with an interface result documents the body as `(app.Animal, error)` (`C100_tuple`); `a = load()` after `a = Dog{}` is passed over, so a body that may be a Cat is documented as Dog (`C100_interface_assignment`); `a = nil` lists `untyped nil` as an alternative (`C100_nil`); a handler method gets the types assigned in a function of the same name in another package (`C100_foreign_function`).
* C101: the search through the imports of framework packages starts from a Go map, stops after two levels and never returns to a package already seen, so of two runs on one program one reports a package and one does not (`C101_order_matters`); the list becomes part of the include list of the effective configuration. A module like github.com/acme/stubhub has no framework packages at all, because its path contains `stub` (`C101_names`).
* C102: `missing-body` is never raised, so an operation whose request and response collapsed to a bare object is fully resolved (`C102_missing_body_unseen`); every method is counted twice in the number of functions, because the types of a package are those of its files (`C102_methods_twice`); the row of an ambiguous interface is labelled by the last element of the package path, so two packages named store overwrite each other in map order (`C102_same_label`), which is what a comment in the code says it prevents; the issues of one operation are in map order (`C102_issue_order`).
* C103: without a contact in the configuration every document gets one, by default the name and address of the tool's author, and no option leaves it out (`C103_contact_forced`); without a licence the document has `license: {name: ""}` (`C103_license_unnamed`); every description that comes from the options, the empty one included, is followed by the copyright and licence notice of the tool, as if it were that of the API (`C103_notice_added`); `MapMetadataToOpenAPI` alone ignores contact, licence and terms if title, description and version are empty (`C103_library_drops`).
* C104: `buildAPISpecConfig` puts the mappings of the user first "so they take precedence", but `resolveSecurity` applies every mapping that matches: a user mapping with `skip: true` does not silence a built-in one, and for the same scheme the later, built-in scopes replace the user's (`C104_no_precedence`). `schemes: [{}]` is accepted and makes the middleware disappear without a trace (`C104_empty_requirement`). Configurations handed to the engine by a Go program are not checked at all.
* C105: the gate that decides whether a cobra/cli command is expanded looks only at the recorded receiver, while the recognisers also accept the receiver the call was written on (the fix for interface receivers, issue #260), so a command whose routes are registered through an interface value loses all of them (`C105_written_missed`); patterns that only give a receiver or a function name are no gates (`C105_no_call_missed`). In the other direction the gate ignores call scopes (`C105_scope_ignored`), which costs work but no routes.
* C106: the package tree stops 20 levels below a top entry. Deeper packages have no entry and are counted only in the total, not at their ancestors (`C106_deep_lost`).
* C107: `statusFromConstructorField` takes the last assignment in the text and the first return statement. With `if a { e = NewErr(400) } else { e = NewErr(401) }` only 401 is documented (`C107_branches_wrong`), although the comment says that an ambiguous value gives nothing; a constructor that replaces a status (`if code == 0 { code = 500 }`, `C107_default_wrong`) or has several return statements (`C107_returns_wrong`) yields a status the handler does not always send.
* C108: a handler that writes one body itself and another, in a different branch, through a response helper documents only the first: the helper is one call further away (`C108_helper_lost`). This also drops a body whose framework status is certain (200).
* C109: with automatic inclusion of framework packages the written configuration lists the framework packages as include patterns, so handing it to a later run drops the packages of the project that do not use the framework (`C109_auto_narrows`). The patterns of a configuration file are written as if they were in effect although they are not (`C109_file_claims`, see also C30). Patterns of a configuration that is handed over are written twice (`C109_repeated`).
* C110: a type that gets its handler method from an embedded type is recorded as an implementer, and expands to no method, so its route is documented without the body that runs (`C110_promoted_missed`). A value in a variable of an interface type is documented with the bodies of all handlers of the program that implement it, also those it never holds (`C110_others_documented`).
* C111: embedded structs are searched depth first, so a deeper field of an earlier embedded struct hides the shallower one Go selects (`C111_depth_wrong`). The comment says the search goes one level deep, but it recurses without bound: for a struct that embeds a pointer to itself, which Go allows, it never ends and the stack overflows (`C111_cycle_never_ends`).
* C112: a field of an embedded struct is not among the keys of the literal and is taken for unset, so the prefix disappears from the path without a trace (`C112_promoted_dropped`). If a parameter is traced to a variable of the caller, that name is looked up among the parameters of the registering function, which can be another value (`C112_names_mixed`).
* C113: the receiver is not compared, so a handler that calls nothing is traced as the method of the same name of another type (`C113_other_receiver`), which one depends on the order of a Go map (`C113_order_dependent`), or as the next function literal of the file, whosever it is (`C113_other_closure`). Packages whose path ends in .v2 are looked for under the wrong path (`C113_version_wrong`).
* C114: the receiver of a called method is not compared, so `Encode(users.Get())` is documented with the result of the first method `Get` of the package although the checker had recorded the right type (`C114_receiver_ignored`). Only the first return statement is looked at, so a function that returns a Dog or a Cat is documented as returning a Dog (`C114_first_return`). A method that returns an interface is looked for among the functions of all packages (`C114_any_function`).
* C115: a link to a folder is not offered, although it can be opened by its path (`C115_links_missing`): the kind of an entry is taken without following links.
* C116: nodes are visited once per key, so when two interfaces lead to one implementation only the first is shown leading to it, and the trace is not marked as cut (`C116_second_caller`). The depth of a function is that of the way met first, not the shortest (`C116_depth_not_distance`).
* C117: without application/json the content type in the report is the one a Go map gives first (`C117_arbitrary_content`); a path parameter that the operation replaces is reported twice (`C117_param_twice`); types with underscores in their names are shown with the last part alone (`C117_names_collide`).
* C118: a method that the first file of its package does not declare is noted as missing and not found in the others (`C118_second_file`); of several calls of a function only the first in the call graph says what a parameter is (`C118_first_call`).
* C119: links are kept by variable, package, type and function, so of several calls on a variable of main only the last has one (`C119_second_call`).
* C121: the names of components have the module path with underscores and pass redaction unchanged, so owner and module are in the redacted export (`C121_component_shown`); a module path whose end is a beginning of the placeholder can be put together by the replacement (`C121_overlap`); a type of github.com/acme/shopify counts as one of the module github.com/acme/shop (`C121_class_wrong`).
* C122: two functions of packages with the same last part and the same name have the same name in the list, and the order of their rows is that of the maps (`C122_same_name`). Methods of types are not listed, because arms are recorded for functions only (metadata.go 1192-1203).
* C123: methods of generic types are never found, so their assignments are not recorded with calls (`C123_generic`); for a package gopkg.in/yaml with a type v3, the function Load of gopkg.in/yaml.v3 is read for the method v3.Load (`C123_other_package`). The comment that keys of methods have no package is out of date (metadata.go 529).
* C124: names of components pass redaction of the export of an endpoint unchanged (`C124_component_shown`). The interface behind a call is not redacted either, but it is recorded by its bare name. Asked for JSON, the handler of the export ignores redaction altogether (main.go 1899-1902, 1911-1914); this is not modelled.
* C125: receivers are looked up by bare names, so with types of one name in two packages the interface shown depends on the order of the maps (`C125_same_name`); the interface with the most implementations is shown, whichever was called (`C125_not_called`).
* C126: the cache is asked before the file set, so after a position of one file set the same number in another set reads as the place in the first, although the comment says that such a position counts as none (`C126_two_sets`).
* C127: a method is found only through the calls it makes, so a type whose method makes no call is not shown among the implementations, although it has a recorded body (`C127_no_calls`).
* C128: a file that sets only entry points, handler methods, the recognition of requests or responses, or a description without a title, loads as a configuration and changes the output, but is not suggested (`C128_not_offered`).
* C129: a build of changed sources without a version is shown as `0.0.1+dirty` and not as `dev`, because the mark is added before the placeholder is tested (`C129_placeholder_dirty`).
* C130: for a method that the type gets from a type embedded in it, or that is not declared at all, the file of a method of the same name of any other type is read (`C130_other_type`).

## Axioms each property theorem depends on

From `#print axioms`; every helper lemma is covered by the theorem that uses it.

* **Classical.choice, Quot.sound, propext**: `AnonStructProps`: C77_fields_partial, C77_embedded_generic; `BehindProps`: C125_not_called, C125_same_name; `BodySourceProps`: C72_sound_partial, C72_complete_partial, C72_decoder_partial; `BodyTypeProps`: C100_covers_partial, C100_assigned, C100_narrowed, C100_listed, C100_interface_assignment, C100_tuple, C100_nil, C100_method, C100_foreign_function, C100_any, C100_after_call; `BrowseProps`: C115_listed, C115_order, C115_one_order, C115_parent, C115_refused, C115_links_missing; `CallBodyProps`: C114_sources, C114_plain_partial, C114_interface_partial; `CallsProps`: C57_each_call_once_partial, C57_by_position_partial, C57_chain_parent_partial, C57_completes_partial, C57_curried_lost, C57_through_field_lost, C57_conversion_crash, C57_conversion_chain, C58_wrong_depth, C58_capped; `CliProps`: C90_documented, C90_accepted, C90_last_counts, C90_default, C90_repeated, C90_directory, C90_directory_flag, C90_page_size, C90_after_directory_ignored, C90_output_file, C90_output_stdout, C90_stdout_mixed, C90_failure, C90_flag_after_directory; `ConcProps`: C36_transparent, C36_shared, C36_stable; `ConfigProps`: C19_exact, C19_first_seen_order, C21_key_faithful, C21_omitted_only_if_present_partial, C20_secondary_kept; `CtorProps`: C107_true_partial, C107_found, C107_variable_partial; `DiagramDepthProps`: C63_depth, C63_monotone, C63_cycle_lost; `DiagramProps`: C65_exact, C65_receiver_partial, C65_plain_function_passes, C65_unknown_scope, C39_order_starts, C39_orders, C39_order_stable_partial, C39_page, C39_partition_partial, C39_has_more_first_partial, C39_has_more_wrong, C39_overflow_crash, C39_clamped; `DiagramServerProps`: C64_key_exact, C64_cache_partial, C64_wrong_answer, C64_project_partial, C64_switch_lost, C66_isolated, C67_nodes, C67_edges_sound, C67_edges_partial, C67_calls_lost, C67_wrong_parent; `EffectiveProps`: C109_written, C109_replay_partial, C109_auto_narrows, C109_file_claims, C109_repeated; `EmbedProps`: C76_own_fields, C76_field_partial, C76_complete_partial, C76_embedded_lost, C76_promoted_field_lost, C76_inline_embedding; `EndExportProps`: C124_redacted_partial, C124_reported, C124_trace, C124_interface_shown, C124_component_shown, C124_cut; `EndpointProps`: C117_found, C117_responses, C117_request, C117_params, C117_one_content_partial, C117_responses_order, C117_arbitrary_content, C117_param_twice, C117_names_collide; `EntryPresetProps`: C97_additive, C97_entrypoints, C97_unscoped, C97_cobra_hooks_missed; `EnumProps`: C42_once, C42_exact_partial, C42_order, C42_mixed_block, C42_conversion_lost, C42_blank_listed, C42_long_text, C42_foreign_name, C42_component_none; `EnvelopeProps`: C81_payload_partial, C81_documented_partial, C81_same_package_lost, C81_sentence_wrong, C81_two_hops_lost, C81_reassigned_wrong, C81_early_return_lost, C81_later_assignment_wrong; `ExportProps`: C121_replaced, C121_export_partial, C121_reported, C121_component_shown, C121_overlap, C121_class_wrong; `ExtImplProps`: C92_named_partial, C92_signature_partial, C92_inside_partial, C92_sound, C92_order, C92_depth_order, C92_instance_order; `FieldLookupProps`: C111_depth_wrong, C111_cycle_never_ends; `FiltersProps`: C30_package, C30_file, C30_analysed_partial, C54_rerun_partial, C30_cgo_misaligned, C30_config_file_ignored, C30_cgo_list, C54_second_run_differs; `FnFileProps`: C130_other_type; `FuncFieldIndexProps`: C85_exact_partial, C85_entrypoints_partial, C85_each_once, C85_order, C85_import_order, C85_named_type_lost, C85_conversion_lost, C85_map_lost, C85_named_slice_lost, C85_package_level_lost, C85_package_positional_lost, C85_deep_lost, C85_short_path_lost, C85_package_name_lost, C85_variable_wrong, C85_field_wrong, C85_method_wrong, C85_same_name_wrong, C85_map_in_field; `FuncMapProps`: C123_other_package; `FwDepsProps`: C101_direct, C101_framework, C101_dependents, C101_imports, C101_imported_ours, C101_once, C101_analysed, C101_order_matters, C101_too_deep, C101_names; `GateProps`: C105_exact, C105_recognised_partial, C105_command_partial, C105_terminal, C105_written_missed; `GenericsProps`: C45_terminates_iff, C45_bound, C45_nearest, C45_outermost, C45_scopes_partial, C45_forwarding_hangs; `GitignoreProps`: C29_gitignore_partial, C29_plain_name, C29_plain_directory, C29_star_stays, C29_double_deep, C29_leading_slash, C29_class_negation, C29_class_crosses, C29_class_swallows, C29_class_backslash, C29_line_break; `HandlerDocProps`: C70_second_sentence_lost, C70_word_lost, C70_annotations, C70_plain; `HandlerLookupProps`: C71_foreign_function, C71_foreign_field, C71_foreign_field_lost, C71_interface_namesake, C71_type_like_package; `HandlerValueProps`: C110_promoted_missed, C110_others_documented; `HeadProps`: C103_required, C103_description, C103_details, C103_effective, C103_ui, C103_contact_forced, C103_license_unnamed, C103_option_ignored, C103_notice_added; `HeaderSideProps`: C82_writer_types, C82_later_assignment_wrong, C82_conversion_wrong, C82_copy_kept, C82_gin_kept, C82_embedded_kept; `IdsProps`: C34_stable, C34_distinct, C34_reload, C34_contents, C34_each_once, C35_strip_partial, C35_generic_receiver, C35_order, C35_positions, C35_caching, C35_copy_keeps_id, C35_copy_partial; `ImplProps`: C91_complete_partial, C91_sound_partial, C91_two_sided, C91_order, C91_same_name_invented, C91_shared_result, C91_any_missed, C91_channel_invented, C91_function_invented, C91_generic_missed, C91_promoted_missed, C91_named_missed, C91_embedded_wrong; `ImplsProps`: C127_methods, C127_no_interface, C127_no_calls; `IndexProps`: C56_types, C56_functions, C56_files, C56_anywhere_partial, C56_anywhere_stale, C56_callees, C56_roots_partial; `InsightGraphProps`: C68_nearest, C68_nodes, C68_edges, C68_order_partial, C68_edges_unordered, C68_sites, C68_whole, C40_resolved_sound, C40_resolved_depth_wrong, C40_named_like_builtin; `InsightPathProps`: C40_count_ends, C40_paths_partial, C40_sample, C40_sample_walk, C40_recursion_miscounted, C40_grade; `InsightWalkProps`: C40_depth, C40_complete, C40_sound, C40_fan_sites, C40_false_alarm; `JsonValueProps`: C75_document_partial, C75_nil_slice, C75_any_string; `LazyProps`: C25_instance_cap, C25_children_limit, C25_no_repeat_on_path, C25_bounded, C25_settles, C25_route_budget, C25_budget_scopes, C25_node_budget, C26_silence_means_complete_partial, C26_report_has_cause, C26_nothing_missing, C26_counts, C27_reordering, C27_plan, C27_explores_the_same; `LinkProps`: C119_found, C119_kept, C119_only, C119_list; `LitProps`: C59_innermost, C59_parent, C60_checkout_partial, C60_dotted_directory, C60_cache, C60_distinct_partial, C60_shortened_alike; `MapLiteralProps`: C79_literal_partial, C79_string_iff, C79_number_string_wrong, C79_rune_wrong, C79_prefixed_wrong, C80_object_partial, C80_constant_lost, C80_number_string_wrong, C80_computed_key_wrong; `MappingProps`: C52_lookup, C52_exact_wins, C52_containers, C52_container_entry, C52_external, C52_generic_argument, C52_channel, C61_resolve, C61_own_type; `MethodsInfer`: C33_best_exists, C32_verbs_in_argument, C32_operations, C32_every_verb_partial, C32_trace_lost, C32_last_wins, C55_one_registration, C55_id, C55_distinct_handlers_partial, C55_underscore, C55_shared_handler; `MethodsProps`: C31_branches_exact, C31_shared_response_lost, C31_same_file_helper_lost, C31_fall_through_lost; `MiddlewareProps`: C48_sound, C48_first_question_complete, C48_complete_partial, C48_repeat_same, C48_history_matters; `MwIdentProps`: C95_identified_partial, C95_wrapper, C95_handler_left_out, C95_anonymous_dropped, C95_later_assignment, C95_receiver_lost, C95_variable_name, C95_method_confused; `NamesProps`: C46_legal, C46_pointer_argument, C46_collisions, C46_overwritten, C46_found; `NearProps`: C108_distance, C108_nearest_documented, C108_only_nearest, C108_helper_lost; `OperandProps`: C112_promoted_dropped, C112_names_mixed; `OriginProps`: C118_repeatable, C118_answered, C118_param_partial; `OverviewProps`: C102_references, C102_resolution, C102_table, C102_methods, C102_statuses, C102_issues, C102_reported, C102_security, C102_bodies, C102_free, C102_deterministic_partial, C102_issue_order, C102_missing_body_unseen, C102_same_label; `ParamNameProps`: C93_stated_partial, C93_silent_partial, C93_wrapper_partial, C93_multipart, C93_order, C93_raw_wrong, C93_derived_constant_wrong, C93_variable_guessed, C93_shadow_wrong, C93_version_wrong, C93_no_argument; `ParamTraceProps`: C74_followed_partial, C74_value_exists, C74_depth_partial, C74_producer_parameter; `ParamsProps`: C07_placeholders_declared_partial, C07_declared_kept, C08_unique, C08_idempotent, C07_no_duplicates_partial, C07_repeated_placeholder_twice, C07_exported_name_twice, C07_non_identifier_undeclared, C43_no_forms, C43_others_untouched, C43_form_body, C43_form_query, C43_required_twice, C43_file_lost, C50_concat, C50_not_concat; `PathVarProps`: C94_reported_partial, C94_sound_partial, C94_once, C94_completed, C94_mount_prefix_reported, C94_use_missed, C94_copy_missed, C94_reused_reported, C94_method_missed; `PathsProps`: C04_one_slash_at_seam, C04_rooted, C04_join_assoc, C05_nested_mounts_partial, C05_nested_mounts_text_partial, C05_repeated_prefix_lost, C06_idempotence_fails_on_nested_names; `PickConfProps`: C128_first_partial, C128_none_partial, C128_not_offered; `PkgTreeProps`: C106_roots, C106_counts, C106_children, C106_names, C106_once, C106_everything_partial, C106_agree_partial, C106_total_partial, C106_order, C106_deep_lost; `PosProps`: C126_place_partial, C126_nowhere_partial, C126_string_partial, C126_same_partial, C126_two_sets; `PresetProps`: C96_gin, C96_echo, C96_fiber, C96_mux, C96_http_partial, C96_http_handle_anywhere, C96_chi, C96_chi_receivers, C96_methods_missed, C96_gin_interfaces_missed, C96_versions_missed; `ReachProps`: C22_prune_exact, C22_pruned_is_barren, C22_order_independent, C22_route_reach_exact, C22_reach_set_exact, C24_main_reach_exact, C24_gate_exact; `RefsProps`: C01_no_dangling_refs, C01_walk_visits_every_reference, C02_repair_keeps_everything, C02_repair_adds_exactly_missing, C02_added_are_placeholders, C02_report_exact, C02_sites_exact, C02_complete_document_untouched, C02_repair_idempotent, C03_reported_type_unique, C03_order_independent; `ResponseDestProps`: C73_dropped_partial, C73_kept_partial, C73_terminates, C73_response_kept_partial, C73_any_argument_partial; `ResponsesDoc`: C11_known_statuses, C11_only_known_or_default, C11_content_iff, C11_nonempty, C11_default_kept, C11_handler, C47_responses_order_independent, C09_types_and_responses_kept, C09_parameters_lost, C09_public_lost; `ResponsesProps`: C12_best_chosen, C12_order_independent, C12_assoc, C12_tie_order_dependent, C12_slot_best, C10_pairing_exact, C10_source_order, C10_slots_consistent, C10_known_status_documented, C10_body_takes_status, C10_no_status_invented, C10_unclaimed_body_documented, C10_unreadable_status_ignored; `RouteCompleteProps`: C87_inner_chain_completes, C10_candidate_key, C10_candidates, C10_frame, C10_frame_handler, C10_argument_frames_merge; `RouteExtractProps`: C98_verb_methods_partial, C98_middleware_documented, C98_chi_verbs, C98_chi_method_partial, C98_chi_variable_verb, C98_raw_verb, C98_handle_guessed, C98_mux_chain_partial, C98_second_verb_dropped, C98_chain_reset, C98_http_verb, C98_http_any; `RouteWalkProps`: C86_body_runs_partial, C86_body_kept, C86_lateral_ignored, C86_last_wins; `SaveProps`: C89_saved_partial, C89_interrupted_partial; `SccProps`: C23_same_component, C23_partition, C23_callee_first, C23_recursive_iff, C23_condensed_graph, C23_order_independent; `SchemaDocProps`: C44_body_used, C44_document_refs_partial, C44_override_refers_to_itself, C44_slice_component; `SchemaRefProps`: C44_route_refs, C44_routes_refs, C44_array_ref_dangles, C44_mapped_ref_dangles; `SchemaShapeProps`: C69_route_partial, C69_document_partial, C69_struct_component_partial, C69_alias_containers, C69_cross_package_alias, C69_used_alias, C69_inline_map, C69_bare_name, C69_mapping_ignored, C69_foreign_type; `SchemaTermProps`: C44_terminates, C44_generate_terminates, C44_nested_suffix_diverges; `ScopeProps`: C51_scope, C51_bad_patterns, C51_only_bad, C51_pattern, C51_param, C51_written_receiver; `SecCheckProps`: C104_accepts, C104_reports, C104_ways_in, C104_effect_partial, C104_empty_requirement, C104_no_precedence, C104_undefined_scheme; `SecurityDoc`: C15_nothing_extra, C15_alternative_offered, C16_key_faithful, C16_dedup, C16_comma_confused, C17_definitions_partial, C17_dangling_emitted, C47_schemes_order_independent, C18_adds_called_for, C18_uncalled_unchanged, C18_import_order_irrelevant; `SecurityProps`: C13_public_iff, C13_required_iff, C13_inherits_iff, C14_report_exact, C14_skip_neutral, C15_as_strong_partial, C15_scopes_overwritten, C15_alternatives_weaken, C15_wrapper_weakens; `SourceProps`: C88_confined_partial, C88_outside_refused, C88_served, C88_switch_shows_all, C88_symlink_escape; `StatusProps`: C83_constant, C83_literal, C83_octal_wrong, C83_unresolved, C83_variable_partial, C83_variable_sound, C83_variable_codes, C83_call_iff, C83_variable_default, C83_parameter_lost, C83_compound_wrong, C83_same_status_lost, C83_argument_wrong, C83_mapper_partial, C83_mapper_documented_partial, C83_mapper_sound_partial, C83_bound_irrelevant, C83_mapper_ends_partial, C83_self_copy_never_ends, C83_swap_never_ends, C83_input_lost, C83_other_lost, C83_method_lost, C83_field_write_lost, C83_external_lost, C83_type_confused, C83_one_status_lost; `SubsumeProps`: C09_every_route_represented, C09_idempotent, C53_method_split, C53_no_method, C53_host_not_method; `SubtreeProps`: C116_edges, C116_functions, C116_complete_partial; `SuggestProps`: C120_functions, C120_types, C120_methods, C120_user, C120_one_order, C120_distinct; `TagsProps`: C49_omitted, C49_name_partial, C49_no_tag, C49_other_key, C49_space, C49_dash, C49_interpreted; `TraceRootProps`: C113_other_receiver, C113_order_dependent, C113_other_closure, C113_version_wrong; `TypeCanon`: C28_internal_roundtrip, C28_canonical_partial, C28_borrowed_package, C28_not_idempotent, C28_function_argument; `TypeProps`: C28_roundtrip, C28_string_roundtrip, C28_rendering_injective, C28_total; `UiProps`: C37_one_owner, C37_generations, C37_epochs_grow, C37_unforced_one_engine, C37_forced_engines, C37_can_finish, C37_stop_exact, C37_told_to_stop, C38_newest_partial, C38_superseded_before, C38_project_partial; `ValidateProps`: C41_rules_partial, C41_numbers, C41_keywords, C41_enum, C41_following_tag, C41_foreign_key, C41_crash, C41_zero_lost, C41_map_dive; `VerbsProps`: C122_rows, C122_only, C122_one_order, C122_same_name; `VersionProps`: C129_linked, C129_no_placeholder, C129_version, C129_development, C129_rest, C129_placeholder_dirty; `WrapperApplyProps`: C84_context_deterministic_partial, C84_groups_deterministic, C84_groups_exact, C84_apply_keeps, C84_apply_complete, C84_mount_iff, C84_complete_reset, C84_round_stops, C84_second_run_differs, C84_second_role_lost, C84_map_order_wrong, C84_via_order, C84_group_prefix_wrong, C84_group_lost, C84_group_invented, C84_embedding_elsewhere_lost; `WrapperFoundProps`: C84_decoder_applied, C84_reader_applied, C84_responder_applied; `WrapperParamProps`: C84_supplied_iff, C84_supplied_position, C84_supplied_plain; `WrapperRouteProps`: C84_once_per_method, C84_only_project_methods, C84_registered_partial, C84_depth_partial, C84_own_path_not_applied, C84_verb, C84_prefix_wrong, C84_first_call_wrong, C84_module_wrong, C84_verb_lost; `WrapperValueProps`: C84_context_partial; `WriteSinkProps`: C78_variable_partial, C78_raw_partial, C78_helper_partial, C78_helper_variable_lost, C78_copy_lost, C78_assigned_later_wrong, C78_helper_reassigned_wrong, C78_helper_parameter_wrong, C78_foreign_helper_wrong, C78_local_payload_lost

* **Quot.sound, propext**: `BehindProps`: C125_interface_partial, C125_order_partial, C125_unknown; `BodySourceProps`: C72_terminates, C72_answer_unique; `BrowseProps`: C115_comparison; `ConfigProps`: C21_primary_first, C21_idempotent, C21_primary_settings, C21_one_by_one, C20_order, C20_patterns, C20_context_kept, C20_case_insensitive; `DiagramProps`: C39_parent_edge_missing; `DiagramServerProps`: C66_neighbours_partial; `EmbedProps`: C76_same_name_kept; `EndpointProps`: C117_short_name_partial; `ExportProps`: C121_kept; `FieldLookupProps`: C111_own, C111_sound, C111_found_partial, C111_selects_partial; `FiltersProps`: C30_filter_paths, C30_union, C30_apply, C30_apply_idempotent; `FnFileProps`: C130_function, C130_method, C130_some; `FuncFieldIndexProps`: C85_method_value; `FuncMapProps`: C123_sound_partial, C123_found_partial, C123_nothing_partial, C123_generic; `GenericsProps`: C45_result; `HandlerDocProps`: C70_split_partial, C70_words_partial, C70_every_comment; `HandlerLookupProps`: C71_function, C71_method_partial, C71_field_partial, C71_value_partial; `HandlerValueProps`: C110_concrete, C110_exact, C110_runs_partial; `HeaderSideProps`: C82_excluded_partial, C82_chain, C82_variable, C82_chain_variable_partial, C82_chain_variable_kept; `InsightGraphProps`: C40_builtins_partial; `LazyProps`: C26_request_honoured, C26_children_limit_silent, C26_false_alarm, C25_chain_repeats; `LinkProps`: C119_order; `MapLiteralProps`: C79_negative_wrong, C80_nested_wrong; `MethodsInfer`: C33_inferred; `MethodsProps`: C31_one_per_method, C31_attribution_partial, C33_words, C33_leading_word; `OperandProps`: C112_unique, C112_value_partial; `OriginProps`: C118_copy_partial, C118_result_partial; `OverviewProps`: C102_score, C102_methods_twice, C102_interfaces; `ParamTraceProps`: C74_nine_helpers; `PathsProps`: C06_convert, C06_convert_idempotent, C06_no_colon_params_left, C06_params_found; `PkgTreeProps`: C106_drawing; `ReachProps`: C22_every_family; `ResponseDestProps`: C73_answer_unique, C73_traced_type; `RouteCompleteProps`: C87_exact, C87_own_function_partial, C87_inner_ignored; `RouteWalkProps`: C86_no_body, C86_same_name_leaks, C86_chained_registration_leaks; `SchemaShapeProps`: C69_lookup_sound; `ScopeProps`: C51_receiver, C51_mount; `SourceProps`: C88_window; `SubsumeProps`: C09_survivors_exact, C09_order_kept, C09_survivors_incomparable, C09_contribution_kept, C09_appendUnique, C53_servemux_normalised; `SubtreeProps`: C116_depth_not_distance; `SuggestProps`: C120_packages, C120_imports; `TraceRootProps`: C113_split, C113_renamed_partial, C113_closure_partial, C113_interface_partial, C113_calls; `UiProps`: C37_released_by_owner, C37_stopped_reply, C38_switch_clears, C62_never_failed, C62_reported_done_partial, C62_published_partial; `UnwrapProps`: C99_unwrapped_partial, C99_part, C99_factory, C99_two_parameters, C99_wrapped_factory, C99_too_deep; `WrapperApplyProps`: C84_apply_twice; `WriteSinkProps`: C78_direct_call_lost, C78_dot_import_lost, C78_method_helper_wrong

* **none**: `CallBodyProps`: C114_receiver_ignored, C114_first_return, C114_any_function; `DiagramProps`: C39_parent_repeated, C39_order_flips; `DiagramServerProps`: C66_order_matters; `HeadProps`: C103_library_drops; `LazyProps`: C27_unordered; `OverviewProps`: C102_score_hundred; `ResponsesProps`: C12_request_order_dependent; `SaveProps`: C89_race_clobbers, C89_crash_loses, C89_encode_failure_loses; `SecurityDoc`: C18_once

* **propext**: `BodySourceProps`: C72_read_all_lost, C72_limited_lost, C72_assigned_later, C72_assigned_later_wrong, C72_method_lost, C72_method_decoder_lost, C72_foreign_variable, C72_callee_variable; `ConcProps`: C36_pool_race; `ConfigProps`: C19_never_empty, C21_receiver_type_ignored; `CtorProps`: C107_branches_wrong, C107_default_wrong, C107_returns_wrong; `DiagramServerProps`: C64_key_collision, C64_stale_drawing; `EmbedProps`: C76_named_embedding_lost, C76_tag_precedence_lost; `GateProps`: C105_no_call_missed, C105_scope_ignored; `GenericsProps`: C45_complete, C45_bindings, C45_wrong_scope, C45_composite; `GitignoreProps`: C29_negation; `HandlerDocProps`: C70_own_text; `HeaderSideProps`: C82_field_kept, C82_parameter_kept; `IndexProps`: C56_roots_stale; `LinkProps`: C119_second_call; `MapLiteralProps`: C80_string_keys, C80_named_lost; `MethodsProps`: C31_explicit_not_split; `NamesProps`: C46_illegal_kept, C46_distinct_partial; `OperandProps`: C112_placeholder; `OriginProps`: C118_second_file, C118_first_call; `PathsProps`: C06_literal_unchanged; `ResponseDestProps`: C73_named_field_lost, C73_named_field_wrong, C73_rewrapped_lost, C73_field_lost, C73_assigned_later_lost, C73_assigned_later_wrong; `ResponsesProps`: C12_request_concrete_wins_partial; `RouteCompleteProps`: C10_frame_distinct; `RouteWalkProps`: C86_wrapped_name_lost, C86_order_decides, C86_no_metadata; `SaveProps`: C89_not_clobbered, C89_unrendered; `SchemaShapeProps`: C69_lookup_declared; `SubtreeProps`: C116_second_caller; `TraceRootProps`: C113_direct; `UiProps`: C37_refused, C38_overtaken, C38_switched, C38_refused_switches, C38_foreign_config, C38_mixed, C38_stopped_publishes, C38_phase_claimed, C38_phase, C62_failure_hidden; `UnwrapProps`: C99_adapter, C99_adapter_package, C99_ambiguous, C99_library_wrapper, C99_converted_call, C99_same_name; `VerbsProps`: C122_ordered; `WrapperParamProps`: C84_mention_wrong, C84_other_function_wrong, C84_far_lost
