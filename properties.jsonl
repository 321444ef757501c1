{"id": "C01", "title": "No dangling component references", "statement": "In every document the generator returns, each '#/components/schemas/X' reference found in a path, operation, parameter, request body, response, header or component schema names a schema that exists in components.schemas.", "quantifier": "all OpenAPI documents (any nesting of schemas, any set of defined components)", "why_tests_cant": "a test checks a handful of documents; the guarantee must hold for every nesting of properties/items/allOf/oneOf/anyOf/not and every subset of missing definitions", "anchors": ["internal/spec/refcheck.go: repairDanglingRefs, forEachSchemaRef, componentSchemaName"]}
{"id": "C02", "title": "Reference repair is conservative and its report is exact", "statement": "Repairing a document never changes or removes a component the generator produced, adds exactly the referenced-but-undefined names, reports each of them once in ascending order together with the exact number of places that refer to it, and a second repair reports nothing and changes nothing.", "quantifier": "all OpenAPI documents", "why_tests_cant": "requires equality of sets/counts over arbitrary documents and an idempotence law over all of them", "anchors": ["internal/spec/refcheck.go: repairDanglingRefs, UnresolvedRef"]}
{"id": "C03", "title": "Go type reported for an unresolved component is unambiguous and order independent", "statement": "The Go type named in an unresolved-component report is a type the run actually used whose component name is that name, it is given only when exactly one such type exists, and it does not depend on the iteration order of the used-type table.", "quantifier": "all used-type tables and all their enumeration orders", "why_tests_cant": "Go map iteration order is random; a test sees one order", "anchors": ["internal/spec/refcheck.go: goTypeByComponentName"]}
{"id": "C04", "title": "Mount prefixes compose", "statement": "Joining a mount prefix and a route path puts exactly one '/' at the seam, always yields a path starting with '/' when the prefix is empty or itself starts with '/', and joining is associative, so nested mounts give the same path however the nesting is grouped.", "quantifier": "all strings for prefixes and paths, any nesting depth", "why_tests_cant": "associativity and seam uniqueness range over all strings", "anchors": ["internal/spec/extractor.go: joinPaths, handleMountNode, handleRouteNode"]}
{"id": "C05", "title": "A route mounted under nested prefixes carries every prefix", "statement": "The documented path of a route registered under mounts p1 ... pn is p1/.../pn/route, for any nesting of mounts.", "quantifier": "all sequences of mount prefixes", "why_tests_cant": "the walk is recursive over arbitrary nesting; the shipped suffix shortcut is wrong for prefixes that repeat, which example tests with distinct prefixes never show", "anchors": ["internal/spec/extractor.go: handleMountNode"]}
{"id": "C06", "title": "Router path syntax is converted to OpenAPI templates", "statement": "Converting a route path leaves literal text unchanged, rewrites every ':name' segment and every '{name:regex}' placeholder to '{name}', and converting an already converted path changes nothing.", "quantifier": "all path strings", "why_tests_cant": "idempotence and preservation range over all strings, including nested braces in regex constraints", "anchors": ["internal/spec/mapper.go: convertPathToOpenAPI, forEachPathParam, stripParamPatterns"]}
{"id": "C07", "title": "Every path-template variable is declared", "statement": "For every operation, every '{name}' in its path template has a required path parameter with that name, parameters the handler itself declared are kept, and no (name, in) pair is declared twice.", "quantifier": "all path templates and all parameter lists", "why_tests_cant": "templates with repeated or unusual placeholders are not covered by examples", "anchors": ["internal/spec/mapper.go: ensureAllPathParams, deduplicateParameters"]}
{"id": "C08", "title": "Parameters are unique per operation", "statement": "The parameter list emitted for an operation never contains two parameters with the same name and location, keeps the first declaration of each, and keeps declaration order.", "quantifier": "all parameter lists", "why_tests_cant": "uniqueness and order preservation over lists of any length", "anchors": ["internal/spec/mapper.go: deduplicateParameters"]}
{"id": "C09", "title": "Duplicate discoveries of one registration collapse without losing routes", "statement": "A discovered route is dropped only if another route with the same handler, method and path remains whose mount prefix strictly contains the dropped one's segments in order; surviving routes keep their relative order, no two survivors are in that relation, and the types, responses and parameters the dropped route contributed stay reachable through a survivor.", "quantifier": "all sets of discovered routes", "why_tests_cant": "needs a well-founded argument over chains of subsumption of any length", "anchors": ["internal/spec/extractor.go: dropSubsumedMountPrefixes, isSubsequence, mountSegments, mergeRouteExtraction"]}
{"id": "C10", "title": "Statuses and bodies pair up correctly", "statement": "Every response the handler writes with a known status code is documented under exactly that code; a body written after a status on the same call chain is documented under that status; no response is documented under a status the handler's fragments do not mention; bodies with no status fall under the framework's implicit status or the default response.", "quantifier": "all sequences of response fragments over any number of call chains", "why_tests_cant": "pairing depends on arbitrary interleavings of fragments from different chains", "anchors": ["internal/spec/extractor.go: pairAndFillResponses, handlerCallDepths"]}
{"id": "C11", "title": "Bodyless statuses carry no content", "statement": "A response documented under 1xx, 204, 205 or 304 has no content section, and every other response that has a body schema has one; each operation documents at least one response.", "quantifier": "all response maps", "why_tests_cant": "ranges over every status code and every response map", "anchors": ["internal/spec/mapper.go: buildResponses, isBodylessStatus"]}
{"id": "C12", "title": "Choosing between two observations of one response is order independent", "statement": "When several code paths contribute a body for one status, a concrete schema always beats a generic one and among equally concrete candidates the same one is chosen whatever order they were discovered in.", "quantifier": "all lists of candidates and all their permutations", "why_tests_cant": "permutation invariance over lists of any length", "anchors": ["internal/spec/extractor.go: preferResponseInfo, preferRequestInfo, mergeRouteExtraction"]}
{"id": "C13", "title": "Security has exactly three states", "statement": "An operation's security is absent (inherits), an explicit empty list (public), or a nonempty list of requirements; it is the explicit empty list exactly when some middleware marks the route public; otherwise it is nonempty exactly when some applicable middleware maps to a scheme; and nothing else changes it.", "quantifier": "all routes, middleware stacks and mapping tables", "why_tests_cant": "decision logic over arbitrary middleware stacks and mapping lists", "anchors": ["internal/spec/security.go: resolveSecurity", "internal/spec/extractor.go: applyRouteSecurity"]}
{"id": "C14", "title": "Unmapped middleware is reported, mapped middleware is not", "statement": "The list of unresolved middleware is exactly the middleware that no configured mapping recognises, in order of first sight, once each; a middleware a mapping marks as skipped is neither reported nor turned into a requirement.", "quantifier": "all middleware stacks and mapping tables", "why_tests_cant": "exactness over all stacks", "anchors": ["internal/spec/security.go: resolveSecurity, anyMappingMatches", "internal/spec/extractor.go: recordUnresolved"]}
{"id": "C15", "title": "Emitted requirements are as strong as the middleware applied", "statement": "If middleware on a route demands a scheme (with scopes), every alternative in the emitted requirement list demands that scheme with those scopes.", "quantifier": "all middleware stacks and mapping tables", "why_tests_cant": "combination of several mappings and alternatives is where the code goes wrong; examples use one mapping", "anchors": ["internal/spec/security.go: resolveSecurity"]}
{"id": "C16", "title": "Deduplicating security requirements preserves meaning", "statement": "Deduplication keeps the first of each group of equal requirements, keeps order, and never removes a requirement that is not equal to one kept.", "quantifier": "all requirement lists", "why_tests_cant": "needs injectivity of the comparison key over all names and scopes", "anchors": ["internal/spec/security.go: dedupSecurityRequirements, securityRequirementKey"]}
{"id": "C17", "title": "Every scheme named by an operation is defined", "statement": "After scheme reconciliation every scheme name used in a security requirement of any operation or of the document is defined in components.securitySchemes, user-declared definitions are never overwritten, and unused preset schemes are not added.", "quantifier": "all documents, configured schemes and preset schemes", "why_tests_cant": "set inclusion over all documents", "anchors": ["internal/spec/mapper.go: reconcileSecuritySchemes"]}
{"id": "C18", "title": "Security presets are applied once and never override the user", "statement": "Applying security presets is idempotent, keeps every user mapping ahead of every preset mapping, keeps user scheme definitions, and activates a preset only if the project imports its library.", "quantifier": "all configurations and import lists", "why_tests_cant": "idempotence over all configurations and any number of applications", "anchors": ["internal/spec/config_security.go: ApplySecurityPresets"]}
{"id": "C19", "title": "Framework detection is order faithful and complete", "statement": "The detected framework list has no duplicates, lists frameworks in the order first met in the file walk, contains a framework exactly when some scanned import belongs to it, stopping early never changes the result, and is ['net/http'] when nothing is recognised.", "quantifier": "all sequences of files and import lists", "why_tests_cant": "the early exit must be shown harmless for every input order", "anchors": ["internal/core/detector.go: DetectAll, Detect", "internal/core/frameworks.go"]}
{"id": "C20", "title": "Composing framework configs keeps every detected framework", "statement": "The composed framework list leads with the chosen primary, contains every detected framework exactly once, and the composed configuration contains every receiver-scoped pattern of every secondary framework (or an equal earlier one) and no unscoped secondary pattern.", "quantifier": "all detected lists and primary choices (any letter case)", "why_tests_cant": "ranges over all lists and selections", "anchors": ["internal/engine/engine.go: ComposeFrameworkConfigFrom", "internal/spec/config_merge.go: SecondaryView, MergeFrameworkConfigs"]}
{"id": "C21", "title": "Merging configs never lets a secondary override the primary", "statement": "In a merged configuration every primary pattern is present, before every secondary pattern, in its original order; a secondary pattern is omitted only if an equivalent pattern is already present; merging the same secondary twice changes nothing more.", "quantifier": "all configurations", "why_tests_cant": "laws over arbitrary pattern lists", "anchors": ["internal/spec/config_merge.go: MergeFrameworkConfigs"]}
{"id": "C22", "title": "Reachability pruning never loses a route", "statement": "A call subtree is pruned only if no call matching any configured pattern is reachable from it, for every call graph including cyclic ones.", "quantifier": "all finite call graphs and match predicates", "why_tests_cant": "cycles and sharing of any size", "anchors": ["internal/spec/prune.go: computeReach, canReachMatch", "internal/spec/route_reach.go: routeReachSet", "internal/spec/reachability.go: reachSet"]}
{"id": "C23", "title": "Cycle condensation is correct", "statement": "The condensation of the call graph puts two functions in one component exactly when each can reach the other, lists components callee-first, marks a component recursive exactly when it contains a cycle, and is independent of the order functions and calls are listed.", "quantifier": "all finite directed graphs", "why_tests_cant": "Tarjan's algorithm over arbitrary graphs", "anchors": ["internal/metadata/scc.go: condenseSCC, SameComponent, InCycle"]}
{"id": "C24", "title": "Entrypoint gate is exact", "statement": "A declared entrypoint becomes an extra analysis root exactly when main cannot reach it and it can reach a route registration; the counts reported add up; roots are sorted.", "quantifier": "all call graphs and entrypoint lists", "why_tests_cant": "graph reachability over arbitrary graphs", "anchors": ["internal/spec/entrypoint_roots.go: entrypointRoots, functionsReachableFromMains, reachesMatch"]}
{"id": "C25", "title": "Expansion always terminates within its budgets", "statement": "For every call graph, recursive or not, and for every order in which nodes are expanded, tree expansion terminates, never exceeds the per-key instance cap in any scope, never repeats a function along a root-to-node path, and never exceeds the configured children limit.", "quantifier": "all call graphs, budgets and expansion orders", "why_tests_cant": "termination and bounds for unbounded recursive programs", "anchors": ["internal/spec/lazytree.go: GetChildren, buildPlan, scopeOf, countKey"]}
{"id": "C26", "title": "Truncation is reported exactly", "statement": "The expansion statistics report truncation whenever a budget refused work and never when no budget did.", "quantifier": "all call graphs, budgets and expansion orders", "why_tests_cant": "needs an invariant over all histories", "anchors": ["internal/spec/lazytree.go: GetChildren, noteRouteTruncation, Stats"]}
{"id": "C27", "title": "Prioritising routes never changes what is explored", "statement": "Reordering children toward routes returns the same children: a permutation that keeps arguments first and keeps relative order inside each class.", "quantifier": "all child lists", "why_tests_cant": "permutation/stability over lists", "anchors": ["internal/spec/lazytree.go: orderTowardRoutes"]}
{"id": "C28", "title": "Type strings survive parsing", "statement": "Parsing a well-formed Go type string and rendering it again gives the same string, parsing is total (never fails on any string), and canonicalisation is idempotent.", "quantifier": "all type strings / all type trees", "why_tests_cant": "nested generics, maps and slices of any depth", "anchors": ["internal/typemodel/typemodel.go: Parse, render, Canonicalize"]}
{"id": "C29", "title": "Ignore patterns follow gitignore semantics", "statement": "A pattern without special characters matches exactly itself (at any depth when it has no slash, and everything below when it ends in a slash); '*' and '?' never cross a '/'; '**' crosses any number of directories; a leading '!' negates.", "quantifier": "all patterns and paths", "why_tests_cant": "regular-expression translation correctness over all strings", "anchors": ["pkg/patterns/gitignore.go: Match, patternToRegex"]}
{"id": "C30", "title": "Exclude beats include", "statement": "A package or file matched by an exclude pattern is never analysed, one matched by no include pattern is not analysed when include patterns exist, and with no patterns everything not auto-excluded is analysed; combining CLI and config-file patterns is an idempotent order-preserving union.", "quantifier": "all pattern lists and paths", "why_tests_cant": "decision logic over all lists", "anchors": ["internal/engine/engine.go: shouldIncludePackage, shouldIncludeFile, unionStrings, applyConfigFilters", "pkg/patterns/gitignore.go: Filter, MatchAny"]}
{"id": "C31", "title": "Handlers that branch on the method become one operation per method", "statement": "Splitting a handler that dispatches on the request method yields one operation per method, each with exactly the responses written in that method's branches or outside all branches, and a route whose method was stated at registration is never split.", "quantifier": "all routes and branch lists", "why_tests_cant": "attribution over arbitrary branch ranges", "anchors": ["internal/spec/method_dispatch.go: splitMethodDispatchRoutes, splitRouteByMethodBranches, expandMultiVerbRoutes"]}
{"id": "C32", "title": "Every registered verb reaches the document", "statement": "A route registered for any HTTP verb the tool recognises appears in the document under that verb; registering several verbs yields one operation each.", "quantifier": "all verbs and route lists", "why_tests_cant": "the verb sets of the recogniser and of the emitter differ; tests cover common verbs", "anchors": ["internal/spec/mapper.go: setOperationOnPathItem", "internal/spec/pattern_matchers.go: isHTTPMethod, verbsFromArg"]}
{"id": "C33", "title": "Method inference only uses whole words", "statement": "The HTTP method inferred from a handler name is one whose keyword is a whole word of the name, the leading word takes precedence, ties are broken by priority, and otherwise the default is reported as not inferred.", "quantifier": "all handler names and mapping tables", "why_tests_cant": "string segmentation over all names", "anchors": ["internal/spec/pattern_matchers.go: methodFromFunctionName, splitNameWords"]}
{"id": "C34", "title": "String interning is lossless and stable", "statement": "Interning a non-empty string and reading it back gives the same string, equal strings get equal indices and different strings different ones, later interning never changes earlier indices, and saving and reloading the table preserves every index.", "quantifier": "all sequences of interning operations", "why_tests_cant": "an invariant over all histories", "anchors": ["internal/metadata/types.go: StringPool"]}
{"id": "C35", "title": "Call identifiers strip to their base", "statement": "Stripping the instance or generic identifier of a call gives its base identifier, the identifier does not depend on the order type arguments are listed, and two calls at different positions have different instance identifiers.", "quantifier": "all package paths, names, receivers, positions and type-argument tables", "why_tests_cant": "string encoding laws over all inputs and map orders", "anchors": ["internal/metadata/metadata.go: CallIdentifier.ID, StripToBase"]}
{"id": "C36", "title": "Shared caches are transparent under concurrency", "statement": "Whatever number of goroutines use the shared regex and type caches and however they interleave, each lookup returns what an uncached computation would return, and a cached value never changes.", "quantifier": "all interleavings of any number of goroutines", "why_tests_cant": "schedules cannot be enumerated by tests", "anchors": ["internal/spec/regex_cache.go: cachedRegex, cachedMatch", "internal/metadata/typeref.go: TypeRefOf"]}
{"id": "C37", "title": "The UI server runs one generation at a time", "statement": "At any moment at most one generation owns the run slot; a request that arrives while one is running is refused unless forced; the slot is released only by its owner; generation numbers only grow.", "quantifier": "all interleavings of generate/force/stop/finish steps", "why_tests_cant": "schedules", "anchors": ["cmd/apispecui/main.go: handleGenerate, handleGenerateCancel"]}
{"id": "C38", "title": "A superseded or foreign result is never published", "statement": "The spec served by the UI belongs to the currently selected project and to the most recently started generation that completed.", "quantifier": "all interleavings of generate/force/stop/project-switch steps", "why_tests_cant": "check-then-act windows only show under particular schedules", "anchors": ["cmd/apispecui/main.go: handleGenerate, setDir"]}
{"id": "C39", "title": "Diagram pages partition the diagram", "statement": "For every page size, concatenating the pages gives exactly the filtered node list in order; an edge is on a page exactly when both ends are on it; totals do not depend on the page; 'has more' is true exactly when a later page is nonempty.", "quantifier": "all node lists, page sizes and page numbers", "why_tests_cant": "arithmetic over all sizes", "anchors": ["internal/diagserver/server.go: generatePaginatedDataInternal"]}
{"id": "C40", "title": "Call-path metrics are right", "statement": "The number of call paths reported for a handler is the number of distinct root-to-leaf call paths (or the cap, flagged as truncated), reported depth is the shortest call distance, and computing them terminates on recursive programs.", "quantifier": "all call graphs", "why_tests_cant": "graph induction", "anchors": ["internal/insight/metrics.go: countPaths, enumeratePaths, analyzeAdjacency"]}
{"id": "C41", "title": "Validation rules map to the right keyword", "statement": "Each recognised rule of a validate tag sets the schema keyword for the field's type (min/max become minLength/minimum/minItems by type), rules after 'dive' apply to the elements only, and no other field tag influences the result.", "quantifier": "all struct tags", "why_tests_cant": "string parsing over all tag texts", "anchors": ["internal/spec/mapper.go: extractValidationConstraints, splitOnDive, applyValidationConstraints"]}
{"id": "C42", "title": "Enums list every constant once", "statement": "The enum of a type is exactly the set of constant values declared with that type, each once, in an order that does not depend on file or map iteration order.", "quantifier": "all constant tables and enumeration orders", "why_tests_cant": "map iteration order", "anchors": ["internal/spec/mapper.go: extractEnumValues"]}
{"id": "C43", "title": "Form parameters land in the right place", "statement": "Form fields become query parameters for operations without a body and request-body properties otherwise (multipart exactly when a file is read), every field is kept once, and non-form parameters are untouched.", "quantifier": "all parameter lists and methods", "why_tests_cant": "partition law over lists", "anchors": ["internal/spec/mapper.go: resolveFormParams"]}
{"id": "C44", "title": "Schema generation terminates on recursive types", "statement": "Mapping Go types to schemas terminates for every type table, including mutually recursive types, and every reference it emits is to a type it also schedules for generation.", "quantifier": "all type tables", "why_tests_cant": "unbounded recursion", "anchors": ["internal/spec/mapper.go: generateSchemas, mapGoTypeToOpenAPISchema"]}
{"id": "C45", "title": "Generic type resolution terminates", "statement": "Resolving a type parameter through its bindings terminates for every binding table and yields the type at the end of the chain.", "quantifier": "all binding tables", "why_tests_cant": "cyclic binding tables are not in examples", "anchors": ["internal/spec/pattern_matchers.go: traceGenericOrigin"]}
{"id": "C46", "title": "Component names are legal and distinct", "statement": "Component names consist only of characters OpenAPI allows and different Go types get different component names.", "quantifier": "all Go type strings", "why_tests_cant": "injectivity over all strings", "anchors": ["internal/spec/mapper.go: schemaComponentNameReplacer"]}
{"id": "C47", "title": "Output does not depend on map iteration order", "statement": "Each table the generator walks while building output is walked in an order determined by its contents, so equal inputs give equal output.", "quantifier": "all tables and all enumeration orders", "why_tests_cant": "Go randomises map iteration", "anchors": ["internal/spec/assignment_order.go", "internal/spec/mapper.go", "internal/spec/security.go: securityRequirementKey, lookupAssignments", "internal/spec/config_security.go: collectImports"]}
{"id": "C48", "title": "Middleware found through helper functions does not depend on query order", "statement": "Asking which mapped middleware a function applies through its callees gives every one reachable, for every call graph and whatever was asked before.", "quantifier": "all call graphs and all query histories", "why_tests_cant": "memoisation during cyclic traversal", "anchors": ["internal/spec/reachability.go: middlewareMatchesThrough"]}
{"id": "C49", "title": "JSON field names follow encoding/json", "statement": "The property name of a struct field is the name in its json tag, a field tagged '-' is omitted, other tags do not influence the name.", "quantifier": "all tag strings", "why_tests_cant": "string parsing over all tags", "anchors": ["internal/spec/mapper.go: extractJSONName, jsonFieldOmitted"]}
{"id": "C50", "title": "Path concatenation resolves left to right", "statement": "A path built by concatenating constants and variables is documented with the constants in source order and one placeholder per variable, each placeholder reported exactly once.", "quantifier": "all concatenation expressions", "why_tests_cant": "structural induction over expressions", "anchors": ["internal/spec/pattern_matchers.go: flattenConcat, resolveConcatenatedPath"]}
{"id": "C51", "title": "Caller/callee scope filters are conjunctions of alternatives", "statement": "A pattern with scope filters matches a call exactly when every nonempty filter list has a regex matching, an invalid or empty regex never widens a filter, and an empty list constrains nothing.", "quantifier": "all filter lists and calls", "why_tests_cant": "decision logic over all lists", "anchors": ["internal/spec/call_scope.go: matchCallScope, matchesAny", "internal/spec/recv_forms.go: matchesRecvType"]}
{"id": "C52", "title": "User type mappings win and exact beats short", "statement": "A user type mapping for a type decides its schema; an exact name match wins over a short-name match wherever it is declared; a mapping for a scalar never applies to a slice, pointer or map of it.", "quantifier": "all mapping lists and type names", "why_tests_cant": "string matching over all names", "anchors": ["internal/spec/external_types.go: lookupConfigSchema, shortNameMatchesBare"]}
{"id": "C53", "title": "net/http ServeMux patterns are split and normalised", "statement": "A ServeMux pattern 'METHOD /path' is split into exactly that method and path, a pattern without a leading method keeps its whole text and has no method, '{name...}' becomes '{name}' and a trailing '{$}' is removed, and nothing else of the path changes.", "quantifier": "all method words, paths and wildcard names", "why_tests_cant": "ranges over all pattern strings, including host-qualified ones and arbitrary spacing", "anchors": ["internal/spec/pattern_matchers.go: splitMethodFromPath, normalizeServeMuxPath, isHTTPMethod"]}
{"id": "C54", "title": "Generating again from the same engine analyses the same code", "statement": "Running generation repeatedly on one engine value, over unchanged sources, analyses the same set of packages every time, whatever include and exclude patterns were configured.", "quantifier": "all numbers of runs, filter configurations, package sets and dependency analyses", "why_tests_cant": "ranges over all histories of runs on a mutable configuration", "anchors": ["internal/engine/engine.go: applyConfigFilters, unionStrings, autoIncludeFrameworkPackages, filterToFrameworkPackages, loadFilteredPackages"]}
{"id": "C55", "title": "Operation ids are unique", "statement": "No two operations of a generated document have the same operationId, whichever handlers are registered, for however many paths and verbs.", "quantifier": "all lists of routes, handlers, verbs and method-dispatching handlers", "why_tests_cant": "ranges over every set of registrations; ids are assembled from independent package, function and verb strings", "anchors": ["internal/spec/mapper.go: buildPathsFromRoutes, setOperationOnPathItem", "internal/spec/method_dispatch.go: expandMultiVerbRoutes, splitMethodDispatchRoutes"]}
{"id": "C56", "title": "Metadata lookups answer like a fresh scan", "statement": "Looking up a type, a function, the callers or callees of a function, or the roots of the call graph gives the same answer as scanning the metadata as it is at that moment, however much was added between lookups and whatever was asked before.", "quantifier": "all metadata contents, all sequences of additions and lookups", "why_tests_cant": "ranges over all histories of growth and queries over lazily built indexes with different invalidation guards", "anchors": ["internal/metadata/types.go: TypeInPackage, FunctionInPackage, FunctionAnywhere, calleeEdgesByNamePkg, BuildCallGraphMaps, SortedPackageNames, SortedFileNames, CallGraphRoots, ImplementersOf"]}
{"id": "C57", "title": "Every call is in the call graph exactly once", "statement": "Every function or method call inside a function of the analysed code appears in the call graph exactly once; a call made on the result of another call is linked to exactly that call; building the graph never crashes.", "quantifier": "all source files: all nestings of calls, chains, literals, conversions and generic instantiations", "why_tests_cant": "ranges over all syntax trees; the traversal visits chained calls out of order and filters repeats by a rendered identity", "anchors": ["internal/metadata/metadata.go: buildCallGraph, processCallExpression, extractRootVariable", "internal/metadata/analysis.go: getCalleeFunctionNameAndPackage"]}
{"id": "C58", "title": "Chain depth counts the calls below", "statement": "The depth recorded for a chained call is the number of calls it is chained on.", "quantifier": "all call chains of any length, from any root expression", "why_tests_cant": "ranges over chains of every length", "anchors": ["internal/metadata/metadata.go: processCallExpression"]}
{"id": "C59", "title": "Calls are attributed to the innermost enclosing function", "statement": "A call is attributed to the innermost function literal that contains it, or to the function declaration that contains it if no literal does; the parent recorded for a literal is the declaration around it. The pruned search finds the same function as an exhaustive one.", "quantifier": "all files with nested source ranges and all positions", "why_tests_cant": "ranges over all syntax trees and positions, including nodes without positions", "anchors": ["internal/metadata/analysis.go: getEnclosingFunctionName, findEnclosingFunctionLiteral, findParentFunction"]}
{"id": "C60", "title": "Identities of function literals are stable and distinct", "statement": "The identity given to a function literal does not depend on where the module or the module cache lies on disk, and literals written at different places have different identities.", "quantifier": "all checkout directories, module caches, files and positions", "why_tests_cant": "ranges over all paths and positions", "anchors": ["internal/metadata/position.go: funcLitName, stablePosition, stableFilename, formatPosition"]}
{"id": "C61", "title": "Own types are documented from their declaration", "statement": "The schema of a third-party type comes from the user's declarations first, then from the registry of well-known types, then from how it marshals; a type the analysed project declares itself is documented from its declaration.", "quantifier": "all type names, registries, fact tables and user declarations", "why_tests_cant": "name matching over all names", "anchors": ["internal/spec/external_types.go: resolveExternalType, wellKnownExternalSchemas"]}
{"id": "C62", "title": "A failed generation is reported as failed", "statement": "If the engine of a generation that nobody stopped returns an error, the request is answered with that error and the error is shown afterwards; what is answered as done was published; a failed generation publishes nothing.", "quantifier": "all interleavings of generate/force/stop/project-switch steps and engine outcomes", "why_tests_cant": "schedules and all outcomes of the engine", "anchors": ["cmd/apispecui/main.go: handleGenerate (result branch), lastErr"]}
{"id": "C63", "title": "The depth limit of a call graph diagram is exact", "statement": "A call graph diagram limited to depth d shows exactly the functions that are at most d calls away from an entry function, and exactly the calls between them; a larger limit never shows less.", "quantifier": "all call graphs, entry functions and limits", "why_tests_cant": "ranges over all graphs, including cyclic ones", "anchors": ["internal/diagserver/server.go: calculateCallGraphDepth, generatePaginatedDataInternal"]}
{"id": "C64", "title": "A diagram answer belongs to the question asked and to the selected project", "statement": "Every page the diagram server answers is the page a freshly started server would compute for that request and for the project that is selected, whatever was asked before and however requests and project switches interleave.", "quantifier": "all histories of requests, filters and schedules of requests and project switches", "why_tests_cant": "schedules and histories", "anchors": ["internal/diagserver/server.go: cache, getAllData, SetInputDir, ensureMetadata, LoadMetadata"]}
{"id": "C65", "title": "Diagram filters select exactly what they say", "statement": "A filtered diagram shows a function exactly if it satisfies every filter given: package, function name, file, receiver, signature, type arguments and scope.", "quantifier": "all nodes and filter values", "why_tests_cant": "ranges over all filter combinations", "anchors": ["internal/diagserver/server.go: matchesFilters, generatePaginatedDataInternal"]}
{"id": "C66", "title": "The package view shows the packages and their neighbours", "statement": "The isolated package view shows exactly the matching functions of the selected packages and the calls between them; the other view adds exactly the functions that call them or are called by them, independent of the order of the calls.", "quantifier": "all diagrams, packages and edge orders", "why_tests_cant": "ranges over all graphs and orders", "anchors": ["internal/diagserver/server.go: handlePackageBasedDiagram, generatePackageBasedData"]}
{"id": "C67", "title": "The call graph drawing has one node per function and one edge per caller/callee pair", "statement": "The drawing of a call graph has exactly one node for each function that calls or is called, one edge for each pair of caller and callee and no other edge, and draws a function literal inside the function that contains it.", "quantifier": "all call graphs with any nesting of literals", "why_tests_cant": "ranges over all call lists and orders", "anchors": ["internal/spec/visualization.go: DrawCallGraphCytoscape, processCallGraphEdge, ensureParentFunctionNode"]}
{"id": "C68", "title": "The trace of an endpoint shows the nearest functions and all calls between them", "statement": "The trace graph of an endpoint shows the functions its handler reaches, nearest first and by name among equally near ones, all of them or the limit with a mark that it was cut; between the functions shown it has exactly the calls of the program, each once; call and caller counts are right; and the same program always gives the same graph.", "quantifier": "all call graphs, all limits, all orders in which maps are enumerated", "why_tests_cant": "ranges over all graphs and all map orders", "anchors": ["internal/insight/metrics.go: buildTraceGraph, sortedSites, analyzeAdjacency"]}
{"id": "C69", "title": "Schemas describe the Go types they stand for", "statement": "The schema documented for a request or response type says what encoding/json writes for its values: an object with one property per serialised field of a struct, an array for slices and arrays, additional properties for maps, a base64 string for byte slices, the scalar for builtins, a reference whose component describes the named type; a mapping the user gives takes precedence.", "quantifier": "all tables of declared types, all route types, all orders in which used types are enumerated", "why_tests_cant": "ranges over all, possibly mutually recursive, type declarations and all map orders", "anchors": ["internal/spec/mapper.go: mapGoTypeToOpenAPISchemaInternal, generateStructSchema, generateAliasSchema, resolveUnderlyingType, qualifyFieldType, generateSchemas, typeByName"]}
{"id": "C70", "title": "A doc comment becomes summary and description without loss", "statement": "The summary and description of an operation, taken from its handler's doc comment, are the first sentence and the rest, with no word lost or repeated; in a comment with annotations only @Summary and @Description and the lines after them contribute, and the prose before them stands in for a missing summary; what other sources already say is kept.", "quantifier": "all comment texts, all first-sentence functions", "why_tests_cant": "ranges over all texts, white space and annotation layouts", "anchors": ["internal/spec/mapper.go: handlerDoc, swaggoDoc, splitSynopsis"]}
{"id": "C71", "title": "An operation is documented with its own handler's comment", "statement": "The comment an operation's summary and description are taken from is that of the function, method, method of a struct field or handler value that serves the route, never that of another declaration of the same name.", "quantifier": "all sets of packages, files, types, methods and functions the compiler accepts, all handler shapes", "why_tests_cant": "ranges over all programs and name clashes", "anchors": ["internal/spec/mapper.go: handlerComments, handlerValueComments, receiverTypeName, valueTypeKey", "internal/spec/extractor.go: findFunctionByName, findMethodByName"]}
{"id": "C72", "title": "Only what is decoded from the request is its body", "statement": "A decode call (json.NewDecoder(x).Decode, json.Unmarshal(x, \u2026)) is documented as reading the request body exactly if the value it decodes comes from the body of the request: read from it there, or held by a variable that was assigned it when the call runs.", "quantifier": "all functions (lists of assignments), all decoded expressions, all configurations of request types and accessors", "why_tests_cant": "ranges over all programs and orders of assignment", "anchors": ["internal/spec/body_source.go: bodySourceResolver.isRequestSource, check, checkIdent, peelAccessorChain, resolveReceiverSource", "internal/spec/extractor.go: latestAssignment, callerAssignmentMap, methodAssignmentMap"]}
{"id": "C73", "title": "What is encoded is a response unless it goes elsewhere", "statement": "An encode call (json.NewEncoder(x).Encode(v)) is documented as a response if x is the response writer or something made of it (a variable, a wrapper struct, the result of a function given it) when the call runs, and is left out only if the type of x is known and no interface the writer satisfies.", "quantifier": "all functions (lists of assignments), all destination expressions, all configurations of writer and compatible types", "why_tests_cant": "ranges over all programs and orders of assignment", "anchors": ["internal/spec/response_dest.go: ShouldDrop, AnyArgReachesWriter, reachesWriter, reachesWriterIdent, leafType", "internal/spec/extractor.go: latestAssignment"]}
{"id": "C74", "title": "A helper's parameter is what the route passes", "statement": "What a helper binds, decodes, encodes or sends as status through a parameter is documented for each route as the argument the route's handler passes for it, through all helpers in between.", "quantifier": "all call stacks, all parameter names, all depths", "why_tests_cant": "ranges over all call chains and namings", "anchors": ["internal/spec/extractor.go: argViaParent, resolveArgThroughParams, traceArgViaParent"]}
{"id": "C75", "title": "Values that are sent conform to the documented schemas", "statement": "Every JSON value that encoding/json writes for a Go value of a documented type conforms to the schema the document gives for that type, references to components included.", "quantifier": "all type tables, all routes and their types, all orders of components, all values of those types of any size and depth", "why_tests_cant": "ranges over all values of all (recursive) types of a program", "anchors": ["internal/spec/mapper.go: mapGoTypeToOpenAPISchema, generateStructSchema, generateAliasSchema, generateSchemas"]}
{"id": "C76", "title": "The properties of a struct are the keys of its JSON", "statement": "The schema of a struct has a property for exactly the keys encoding/json writes for it, each with the schema of the field the value is taken from, promoted fields of embedded structs included.", "quantifier": "all structs, all embedded structs at any depth, all tags", "why_tests_cant": "ranges over all struct declarations and embeddings", "anchors": ["internal/metadata/metadata.go: processStructFields, buildAnonStructType", "internal/spec/mapper.go: generateStructSchema"]}
{"id": "C77", "title": "Inline structs are read back as printed", "statement": "From the printed text of an inline struct type (struct{Name Type \"tag\"; ...}) the tool reads exactly its named fields, each with its type and its tag, however deep types nest and whatever the tags contain.", "quantifier": "all inline structs, all nested types, all tags, all surrounding text", "why_tests_cant": "ranges over all texts of types", "anchors": ["internal/spec/mapper.go: schemaFromAnonStructLiteral, anonStructBody, splitTopLevel, parseAnonField"]}
{"id": "C78", "title": "Bytes written are documented as what was serialized", "statement": "When a handler serializes a value and writes the bytes to the response (b, _ := json.Marshal(v); w.Write(b), or w.Write(encode(v)) with a helper), the response is documented with the type of the value whose serialization is written; bytes that come from elsewhere are documented as bytes.", "quantifier": "all handlers, all sequences of assignments, all helpers, all configured serializers", "why_tests_cant": "ranges over all programs and their executions", "anchors": ["internal/spec/write_sink.go: unwrapWriteSink, unwrapHelperReturn, helperSerializedParam, sinkAssignments, matchBodyTransform", "internal/metadata/analysis.go: getCalleeFunctionNameAndPackage", "internal/metadata/metadata.go: processAssignment, extractReturns"]}
{"id": "C79", "title": "Literal values are documented with their JSON type", "statement": "A literal sent in a response (a number, a string, a character) is documented with a type whose JSON values include the one the literal is written as.", "quantifier": "all literals of the language", "why_tests_cant": "ranges over all source texts of literals", "anchors": ["internal/spec/extractor.go: determineLiteralType, resolveArgType", "internal/spec/context_provider.go: callArgToString"]}
{"id": "C80", "title": "Map literals are documented key by key", "statement": "A response that is a map[string]T literal is documented as an object whose properties are exactly the constant keys, each with the schema of its value; every value the literal evaluates to conforms, and keys that cannot be read leave the object open.", "quantifier": "all map literals, all values of the variables in them", "why_tests_cant": "ranges over all literals and all their evaluations", "anchors": ["internal/spec/map_literal.go: mapLiteralSchema, constantKeyValue", "internal/spec/extractor.go: resolveArgType"]}
{"id": "C81", "title": "The payload of a response envelope is documented with the type the route passes", "statement": "When routes answer through a helper that wraps its payload in an envelope struct made by a constructor, the schema of each route documents the payload field with the type of the value that this route passes, and of no other.", "quantifier": "all helpers, constructors, envelopes and routes, all executions", "why_tests_cant": "ranges over all programs and executions of helper and constructor", "anchors": ["internal/spec/wrapper_specialisation.go: collectWrapperOverrides, constructorFieldParams, resolveOverrideGoType, cleanOverrideType, specialiseWrapperSchema", "internal/metadata/metadata.go: processAssignment"]}
{"id": "C82", "title": "Headers of the response are not documented as parameters", "statement": "Reading back a header that the server is about to send (w.Header().Get(k)) is never documented as a request parameter, and a read of a request header is never lost.", "quantifier": "all receiver expressions, all assignments before the read, all executions", "why_tests_cant": "ranges over all programs and executions", "anchors": ["internal/spec/param_origin.go: receiverOriginTypes, argOriginTypes", "internal/spec/extractor.go: ParamPatternMatcherImpl.MatchNode", "internal/spec/config.go: responseWriterOriginRegex", "internal/metadata/metadata.go: processCallExpression"]}
{"id": "C83", "title": "Every status a branch can send is documented", "statement": "When a handler sends the status held in a variable, or in a field of the struct that an error mapper returns, every status that some branch puts there is documented, or a default response is; nothing else is documented, and the analysis ends.", "quantifier": "all sequences of assignments, all programs of mappers and helpers, all executions of them", "why_tests_cant": "ranges over all programs, executions and recursion patterns", "anchors": ["internal/spec/schema_mapper.go: MapStatusCode, HTTPStatusByName", "internal/spec/extractor.go: expandVarStatuses, statusCodeOfValue, ExtractResponse", "internal/spec/mapper_field_status.go: statusesFromMapperField, returnFieldStatuses, fieldStatusOfValue, structFieldValue"]}
{"id": "C84", "title": "The project's own routers and contexts are read for what they hand on", "statement": "When a project registers its routes, answers, or reads its input through methods of its own, a call of such a method is documented by the arguments that reach the framework; what is found does not depend on map order, half a registration is never used, and configured patterns are kept.", "quantifier": "all programs of methods and calls, all ways one method calls another, all map orders, all configurations", "why_tests_cant": "ranges over all programs, call chains, map orders and configurations", "anchors": ["internal/spec/wrapper_detect.go: DetectRouterWrappers, deriveWrapper, derivationRound, groupWrappers, detectGroupMounts, detectValueWrappers", "internal/spec/wrapper_params.go: indexOf, identsIn", "internal/engine/engine.go: applyDetectedWrappers, addPatternOnce"]}
{"id": "C85", "title": "A call through a field of a struct reaches the functions stored in it", "statement": "When a program keeps functions in fields of structs and calls them there, as command libraries do, the code seen to run is exactly that of the functions that composite literals store in the field, each once and in the same order whatever order files and imports are visited in; fields a library calls give the same as entrypoints.", "quantifier": "all programs, all nestings of literals, all import lists, all file orders", "why_tests_cant": "ranges over all programs, nestings of literals, sets of imports and orders of visiting", "anchors": ["internal/spec/func_field_dispatch.go: buildFuncFieldDispatch, walkCompositeLits, addStructInstances, functionKeysOfValue, functionKeyFromRendered, keysFor", "internal/metadata/metadata.go: processStructInstance"]}
{"id": "C86", "title": "A route's request body comes from code the route runs", "statement": "The request body documented for a route was read in a function that runs when the route is called (or that registers it). Code of other routes that the analysis can merely see from there has no influence on it, whatever that code is; and a body read where the route's own code leads is not lost.", "quantifier": "all programs, all trees of calls and arguments hanging below a registration, all attachments of unrelated code", "why_tests_cant": "the tree attaches any function that writes a value the route reads; the claim ranges over all such attachments and depths", "anchors": ["internal/spec/request_provenance.go: followsControlFlow", "internal/spec/extractor.go: extractRouteChildrenScoped, preferRequestInfo, requestIsConcrete"]}
{"id": "C87", "title": "A route is completed only by calls of its own registration", "statement": "Method, path and handler of a route are filled in by the call that registers it and the calls that continue the same statement, all of which are considered. A registration inside a function that is called on the way, an argument, and everything below those, cannot replace them.", "quantifier": "all trees below a registration", "why_tests_cant": "ranges over all shapes of trees and all chains", "anchors": ["internal/spec/extractor.go: extractRouteChildrenScoped, completesSameRegistration"]}
{"id": "C88", "title": "The source view shows only files of the project and its dependencies", "statement": "The source view of the web UI answers only with lines of files below the analyzed module, GOROOT or the module cache; any other path is refused; every line of every such file can be shown, and exactly the lines around it that were asked for (at most 200 on each side).", "quantifier": "all disks, all paths however they are spelled (relative, with . and .. and doubled slashes), all positions, all sizes of window, all project directories", "why_tests_cant": "ranges over all spellings of paths and all directory trees; a test tries a few ../", "anchors": ["cmd/apispecui/main.go: handleInsightSource, sourcePathAllowed, findModuleRoot, queryInt, handleProject, validateProjectDir", "internal/insight/export.go: parsePos, readSourceWindow, SourceSnippet, PosFile"]}
{"id": "C89", "title": "Saving does not destroy files", "statement": "Saving a configuration without leave to overwrite never alters a file that exists, whatever is saved at the same time; once a save is answered with success the file holds the whole document; a document that cannot be rendered touches nothing; an interruption leaves the old or the new contents.", "quantifier": "all numbers of simultaneous saves and commands, all interleavings of their steps, all crash points", "why_tests_cant": "depends on the schedule and on where the process stops", "anchors": ["cmd/apispecui/main.go: handleSaveConfig", "cmd/apispec/main.go: writeOutput"]}
{"id": "C90", "title": "The command line means what the help says", "statement": "Every flag sets the option it is documented for, under either name, with one or two dashes and with = or a separate value; of several the last counts, repeatable ones collect in order, options not given keep their defaults, and anything else is refused. With an output flag the document goes to that file, as YAML or JSON by its name, and nothing else is written; without one it is printed.", "quantifier": "all lists of arguments", "why_tests_cant": "ranges over all sequences of arguments", "anchors": ["cmd/apispec/main.go: parseFlags, writeOutput, main"]}
{"id": "C91", "title": "A struct is recorded as implementing an interface of the analyzed packages exactly when it does", "statement": "For every struct type and every interface of the analyzed packages, the metadata lists the struct under the interface and the interface under the struct exactly when the struct (or a pointer to it) has every method of the interface with the same parameter and result types; the two lists agree, and they come in the same order on every run.", "quantifier": "all programs: any number of packages, types, methods, signatures of any nesting, embedded types, and every iteration order of the maps", "why_tests_cant": "ranges over all programs and over map iteration orders", "anchors": ["internal/metadata/metadata.go: analyzeInterfaceImplementations, processInterfaceMethods", "internal/metadata/analysis.go: normalizeSignature, implementsInterface"]}
{"id": "C92", "title": "The types that implement an interface of another package are found", "statement": "When the analyzed code refers to an interface declared outside the analyzed packages - by name, or in the type of something it refers to - every type of the analyzed packages that implements it is among its implementers, no other type is, and the answer is the same on every run.", "quantifier": "all graphs of types, all sets and orders of references, all implementation relations, all metadata", "why_tests_cant": "the references are Go maps iterated in random order; a test sees one order and small types", "anchors": ["internal/metadata/metadata.go: analyzeExternalInterfaceImplementations", "internal/metadata/types.go: ImplementersOf"]}
{"id": "C93", "title": "A documented parameter has the name the code asks the request for", "statement": "For every call that reads a query, header, form, cookie or path parameter, the documented parameter has the name the call asks the request for in every run, the place and requiredness its pattern says, and a file part is binary and makes the body multipart. A call whose argument does not state the name documents nothing.", "quantifier": "all programs (packages, files, declarations), all argument expressions, all patterns, all memory contents at run time and all file orders", "why_tests_cant": "ranges over all programs and over what variables hold at run time", "anchors": ["internal/spec/extractor.go: paramWireName, ParamPatternMatcherImpl.ExtractParam", "internal/spec/context_provider.go: ConstantValue, constantInPackage, selectorPackageKey", "internal/metadata/metadata.go: processVariables"]}
{"id": "C94", "title": "A path variable a handler reads but its route does not declare is reported, and nothing else is", "statement": "For frameworks whose path variables come from a map (mux.Vars): every variable some path through the handler reads and the route does not declare is reported once with the method and path of the route; every report is such a read; and the variables a route declares are documented as path parameters when its handler reaches the accessor, without touching the parameters already there.", "quantifier": "all handlers (sequences of statements, expressions of any nesting, every path through them), all routes, accessor patterns and metadata orders", "why_tests_cant": "ranges over all handlers and over the paths control flow can take", "anchors": ["internal/spec/extractor.go: recordPathVarKeyMismatches, recoverAccessorKeys, collectAccessorKeys, isAccessorCall, completeMapKeyPathParams", "internal/metadata/metadata.go: processAssignment"]}
{"id": "C95", "title": "Every middleware a router call applies is identified by the function it comes from", "statement": "For a call that applies middleware, the arguments the pattern marks as middleware are, one for one and in order, resolved to the function each value is or was made by (name, package, receiver), so that the security mapped to that function is documented; the handler is never taken for middleware; a handler wrapped in a call is protected by the function called.", "quantifier": "all programs, functions and methods, assignments before and after the call, argument lists and patterns, metadata map orders", "why_tests_cant": "ranges over all programs and over the order of metadata maps", "anchors": ["internal/spec/security.go: middlewareRefFromArg, resolveMiddlewareIdentRef, lookupAssignments", "internal/spec/pattern_matchers.go: ExtractMiddlewareFromEdge", "internal/metadata/metadata.go: processAssignment"]}
{"id": "C96", "title": "The built-in patterns of each framework recognise exactly its registration calls", "statement": "With the built-in configuration of a framework (chi, gin, echo, fiber, gorilla/mux, net/http), a call is read as a route registration or a mount exactly when it is one of the registration methods of that framework on one of its router types: no such call is missed and no other call, on any other type, is documented.", "quantifier": "all method names and all receiver types (texts of any length), all lists of receiver forms a call can have", "why_tests_cant": "ranges over all names and receivers; tests try a few", "anchors": ["internal/spec/config_chi.go: DefaultChiConfig", "internal/spec/config_gin.go: DefaultGinConfig", "internal/spec/config_echo.go: DefaultEchoConfig", "internal/spec/config_fiber.go: DefaultFiberConfig", "internal/spec/config_mux.go: DefaultMuxConfig", "internal/spec/config_http.go: DefaultHTTPConfig", "internal/spec/recv_forms.go: matchesRecvType", "internal/spec/pattern_matchers.go: MatchNode"]}
{"id": "C97", "title": "Command bodies of CLI libraries are entrypoints exactly when the program uses the library", "statement": "Applying the entrypoint presets keeps the patterns of the user first and unchanged, adds nothing twice, is idempotent and changes nothing for a program that imports none of the libraries; afterwards a function stored in a field is an entrypoint exactly when a pattern of the user says so or the program imports the library and the field is a command body or hook of it; a pattern that names no type matches nothing.", "quantifier": "all import lists, all user patterns, all owner types and fields (texts of any length, any major version)", "why_tests_cant": "ranges over all import lists, type names and user configurations", "anchors": ["internal/spec/config_entrypoints.go: entrypointBundles, ApplyEntrypointPresets, matchesEntrypoint", "internal/spec/config_security.go: anyImportMatches"]}
{"id": "C98", "title": "A registration documents the verb, path and handler it registers", "statement": "With the built-in configuration of a framework, the operation documented for a registration has the verb(s), the path and the handler of that registration: verb methods (Get, POST), the verb as an argument (chi Method), in front of the path (net/http), or in another call of the same chain (gorilla/mux, the calls in any order).", "quantifier": "all registration calls: all verbs in all capitalisations, all paths, all handlers, all chains of calls of any length and order", "why_tests_cant": "ranges over all chains and orders of calls and all argument texts", "anchors": ["internal/spec/pattern_matchers.go: ExtractRoute, extractRouteDetails, isValidHTTPMethod", "internal/spec/extractor.go: executeRoutePattern", "internal/spec/config_mux.go: DefaultMuxConfig", "internal/spec/config_chi.go: DefaultChiConfig", "internal/spec/config_http.go: DefaultHTTPConfig"]}
{"id": "C99", "title": "A wrapped handler is documented as itself", "statement": "When a handler is registered through conversions (http.HandlerFunc(h)), middleware (withAuth(h)) or adapters, in any nesting, the operation documents h. A function that builds a handler, or adapts another kind of function, is documented itself, and nothing is guessed when two functions could be the handler.", "quantifier": "all handler expressions: all nestings of conversions and calls, all further arguments, all signatures of the functions called", "why_tests_cant": "ranges over all expressions, of any depth", "anchors": ["internal/spec/pattern_matchers.go: handlerArgValue, convertedHandler, wrappedHandler, wrappedHandlerDepth, middlewareShaped, namesAFunction"]}
{"id": "C100", "title": "A body held in an interface variable is documented as what it holds", "statement": "When a request or response body is passed in a variable whose type is an interface, the types documented (one, or a list of alternatives) include the dynamic type the variable has in every run in which the call is made, and each is a type assigned to the variable.", "quantifier": "all functions (any nesting of branches and loops), all assignments, all runs", "why_tests_cant": "ranges over all programs and all their runs", "anchors": ["internal/spec/extractor.go: resolveTypeOrigin, concreteFromEnclosingFunc, concreteSetFromEnclosingFunc, findFunctionByName", "internal/spec/handler_value.go: ambiguousConcreteSet, oneOfSchemaFor", "internal/spec/pattern_matchers.go: ExtractRequest, resolveTypeOrigin", "internal/metadata/metadata.go: processAssignment", "internal/metadata/analysis.go: analyzeAssignmentValue"]}
{"id": "C101", "title": "The report of framework dependencies lists what the imports say", "statement": "A package is reported as using a framework exactly when it imports one and is no test package, with the first framework of the order it imports; as dependent exactly when it reaches such a package through its imports, at any distance; every package of the module that a framework package imports is reported; no package is reported twice; and every package of the module is analyzed whatever the report says. Two runs on one program report the same.", "quantifier": "all programs (any import graph), all orders of the Go map of framework packages", "why_tests_cant": "ranges over all import graphs, of any depth, and over the map orders of all runs", "anchors": ["internal/metadata/dependency_analyzer.go: findAllFrameworkPackages, detectFrameworkType, dependsOnFrameworkPackage, hasTransitiveFrameworkDependency, findImportedPackages, findImportsRecursivelyWithDepth, isTestMockPackage, isProjectRelatedPackage", "internal/engine/engine.go: filterToFrameworkPackages"]}
{"id": "C102", "title": "The overview counts what is in the document", "statement": "The tables of the overview have one row per verb, tag, status or scheme with the number of operations it applies to; every operation is counted as broken exactly when it has no response or names, at any depth of any of its schemas, a component that is missing or made up, and each of these is reported with its verb and path; protected exactly when no caller without credentials may call it; bodies are counted as empty, unresolved or described by what their schemas say. Showing the overview again shows the same.", "quantifier": "all documents (any nesting of schemas), all orders of the Go maps", "why_tests_cant": "ranges over all documents and all map orders", "anchors": ["internal/insight/overview.go: BuildOverview, operationsOf, classifyResolution, securityStats, collectOperationIssues, addStatusBody, bodyResolution, refIssues, schemaRefs, sortedCounts, interfaceStats, callGraphStats"]}
{"id": "C103", "title": "The head of the document says what configuration and options say", "statement": "For every configuration and every set of options, title, version, terms, contact and licence of the document are those of the configuration where it gives them, else those of the options, else the defaults, so title, version and OpenAPI version are never empty; servers, global security, tags and documentation are those of the configuration; a run with the configuration an earlier run wrote describes the API in the same way whatever its options are; a run from the UI does so as the command line does.", "quantifier": "all configurations and options", "why_tests_cant": "ranges over all combinations of what is given and what is left out, and over pairs of runs", "anchors": ["internal/engine/engine.go: NewEngine, GenerateOpenAPI", "internal/spec/mapper.go: MapMetadataToOpenAPIWithDiagnostics", "cmd/apispecui/main.go: handleGenerate"]}
{"id": "C104", "title": "A security configuration with a mistake is refused, and one without says something", "statement": "Whichever way a configuration comes in (file, text from the UI, composed by the UI), a run starts only if every pattern has a known scope and a matcher, every mapping has a matcher and says what to do without contradicting itself, no scheme name is blank, and every expression compiles; otherwise the first entry with a mistake is named with what is wrong with it. Middleware matched by a mapping of an accepted configuration is documented as the mapping says.", "quantifier": "all configurations and all sets of middleware", "why_tests_cant": "ranges over all lists of patterns and mappings, all regular expressions and all middleware", "anchors": ["internal/spec/config.go: ValidateSecurity, checkSchemeKeys", "internal/spec/mapper.go: LoadAPISpecConfig", "cmd/apispecui/main.go: buildAPISpecConfig", "internal/spec/security.go: resolveSecurity"]}
{"id": "C105", "title": "Every recognised registration makes its command worth expanding", "statement": "A call counts as a registration, for the choice of the commands that are expanded besides main and for the extra budget of registrations, exactly when it has a name and its name and recorded receiver are what a route pattern (or, for the choice of commands, a mount pattern) with an expression for the call asks for. Hence a declared command that main does not call and that leads to a call the route patterns recognise is expanded; the extra budget does not depend on the mount patterns.", "quantifier": "all patterns, all calls, all call graphs and all sets of declared commands", "why_tests_cant": "ranges over all regular expressions, all calls and all call graphs", "anchors": ["internal/spec/entrypoint_roots.go: RouteRegistrationMatcher, TerminalRouteMatcher, registrationMatcher", "internal/metadata/tracker.go: entrypoint roots"]}
{"id": "C106", "title": "The tree of packages accounts for every drawn package", "statement": "In the package tree of the diagram server every entry appears once, under the entry whose path it extends by one part; the number at an entry is the number of drawn functions whose package lies at or below it; the numbers at the top add up to what is drawn; and the order does not depend on the order of the drawing.", "quantifier": "all sets of drawn functions and package paths of any depth", "why_tests_cant": "ranges over all package paths and all graphs", "anchors": ["internal/diagserver/server.go: handlePackageHierarchy, buildPackageHierarchy"]}
{"id": "C107", "title": "A status handed to a constructor is the one documented", "statement": "If a response status is read from a field of a variable, and the variable was last assigned, outside of any branch, the result of a function that returns one literal with one of its unchanged parameters in that field, then the status documented is the one written in that call at the place of the parameter, and it is what the field holds in every run of the handler. If a variable was handed over, exactly the values of that variable are looked at.", "quantifier": "all programs, handlers, constructors, arguments and runs", "why_tests_cant": "ranges over all programs and all their runs", "anchors": ["internal/spec/extractor.go: statusFromConstructorField, constructorFieldParam, statusesFromConstructorField, findCallEdge, constructorFieldArg", "internal/metadata/metadata.go: return values of functions"]}
{"id": "C108", "title": "Bodies without a status are taken from closest to the handler", "statement": "The number used to rank response bodies without a readable status is exactly the length of the shortest chain of calls from the handler to the function that writes the body, for every call graph, recursive or not. A body that no status write claims is documented if no other such body is written fewer calls away, and a response documented without a status is always such a body.", "quantifier": "all call graphs, handlers and sets of response writes", "why_tests_cant": "ranges over all call graphs (with cycles) and all sets of writes", "anchors": ["internal/spec/extractor.go: handlerCallDepths, pairAndFillResponses"]}
{"id": "C109", "title": "The configuration that is written repeats the run", "statement": "The include and exclude patterns in the configuration written for --output-config are exactly those the run filtered by, from the command line and from the configuration handed over; a later run with that configuration, and no patterns on the command line, analyses the same packages of any project as the same options would.", "quantifier": "all pattern lists, options and sets of packages", "why_tests_cant": "ranges over all patterns, packages and options", "anchors": ["internal/engine/engine.go: mergeIncludeExcludePatterns, applyConfigFilters, GenerateOpenAPI"]}
{"id": "C110", "title": "A handler value is documented with the method the framework calls on it", "statement": "When a route is given a value instead of a function, the bodies documented for it are those of exactly the configured handler methods that are declared by the types the value may have: its own type, or, for an interface, the recorded implementers, whether the interface is of the project or not. The expansion always ends.", "quantifier": "all types, interfaces, implementers and configured handler methods", "why_tests_cant": "ranges over all programs and all values a variable may hold", "anchors": ["internal/spec/handler_value.go: handlerMethodKeys, splitTypeKey, implementersOfExternal", "internal/metadata/types.go: ImplementersOf", "internal/spec/field_resolver.go: findType"]}
{"id": "C111", "title": "The type of a selected field is the type of the field Go selects", "statement": "Where the type checker recorded no type for a selection like x.ID, the type documented is that of the field declared by the struct or, if it declares none, of a field of that name of a struct embedded in it; it is the field Go selects, and the search always ends.", "quantifier": "all structs, embeddings, depths of embedding and field names", "why_tests_cant": "ranges over all graphs of embedded structs", "anchors": ["internal/spec/field_resolver.go: lookupFieldType, splitPkgType, stripPointer, findType"]}
{"id": "C112", "title": "A part of a path is documented with the value it has", "statement": "A part of a concatenated path that is written into the document as text is the value the part has whenever the registration runs: a constant, a parameter all callers pass one value for, or a field of a struct literal the caller passed, which is empty if the literal does not set it. A part without a known value leaves a named parameter in the path, it is never dropped.", "quantifier": "all parts of paths, call sites, enclosing functions and literals, and all runs", "why_tests_cant": "ranges over all callers of a function and all literals they pass", "anchors": ["internal/spec/pattern_matchers.go: resolvePathOperand, structFieldValue, callerArgFor, uniqueCallerArg, enclosingFuncID, paramArgOfEnclosingFunc, unwrapComposite, placeholderFor"]}
{"id": "C113", "title": "The trace of an operation starts at its handler", "statement": "The trace shown for an operation starts at the function the operation names, if that calls something; else at the only function or method of that name in the package that does; else, for a function that returns its handler, at the function literal that follows its declaration most closely in its file; else at the implementer of the interface method. The answer does not depend on the order in which declarations are visited.", "quantifier": "all packages, declarations, operations and orders of visiting", "why_tests_cant": "ranges over all programs and all orders of map iteration", "anchors": ["internal/insight/endpoint.go: resolveHandlerKey, candidateHandlerKeys, findFuncLitInFile, resolveInterfaceImplHandler, implMethodPos, splitOpID, splitOpID3"]}
{"id": "C114", "title": "A body that is the result of a call is documented with the type the called function returns", "statement": "When a response body is a call, the documented type is the result type of the function or method that is called. When that is an interface and all values the function returns have one concrete type, that type is documented, and otherwise the interface.", "quantifier": "all programs, functions, methods, return statements and calls", "why_tests_cant": "ranges over all programs that declare functions and methods of the same name", "anchors": ["internal/metadata/types.go: processFunctionCallReturnType, extractReturnTypeFromSignature", "internal/metadata/metadata.go: extractReturns", "internal/spec/extractor.go: resolveArgType, resolveTypeOrigin, findFunctionByName, concreteFromCalleeReturn"]}
{"id": "C115", "title": "The folder picker offers the folders that are there", "statement": "A listing of a folder offers exactly its folders that are not hidden and, if asked, its YAML files, once each; projects come first, then other folders, then files, in the order of their names whatever their case. The parent that is shown is the folder the listed one is in, and only the root has none. What is no folder or cannot be read is refused.", "quantifier": "all folders, names, orders of a sort and requests", "why_tests_cant": "ranges over all file systems and all orders a sort may leave equal names in", "anchors": ["cmd/apispecui/main.go: UIServer.handleBrowse, BrowseEntry, BrowseResponse"]}
{"id": "C116", "title": "The trace of a route shows the calls below it", "statement": "Every edge of the trace of a route is a call below its handler, shown once; the functions counted are the handler and those an edge leads to, each reached from the handler along the edges shown; a trace that is not marked as cut shows every call below the handler that is not a builtin, with implementations of interfaces in between.", "quantifier": "all trees of calls, bounds on depth and number of functions", "why_tests_cant": "ranges over all trees of calls", "anchors": ["internal/insight/metrics.go: analyzeTrackerSubtree"]}
{"id": "C117", "title": "The report about an endpoint repeats what is documented", "statement": "An endpoint is reported as found exactly if the document has an operation for its path and method. Its report lists each documented response once, in the order of the statuses, the request and the parameters of path and operation; of a content it reports the JSON schema if there is one, else another of its types. The report does not depend on the order of Go maps, and a parameter the operation replaces is listed once.", "quantifier": "all documents, paths, methods and orders of map iteration", "why_tests_cant": "ranges over all documents and orders of map iteration", "anchors": ["internal/insight/endpoint.go: BuildEndpointWithSource, operationFor, firstContent, shortName"]}
{"id": "C118", "title": "Where a variable comes from does not depend on what was asked before", "statement": "The answer to the question where a variable of a function comes from is the same whatever was asked before, although answers and methods are remembered for the whole run, and every question is answered, even if variables, parameters and results lead to each other. A parameter comes from what is passed, a copy from what is copied, a result from the variable that is returned.", "quantifier": "all programs, all histories of questions, all chains and cycles of variables, parameters and results", "why_tests_cant": "ranges over all histories of questions and all cyclic programs; a cached answer shows only in the right order of questions", "anchors": ["internal/metadata/analysis.go: TraceVariableOrigin, traceVariableOriginHelper"]}
{"id": "C119", "title": "Which call a variable is linked to does not depend on the order of maps", "statement": "Each variable that is assigned and on which something is called, or that is passed on, is linked to one call: the one that the last edge of the call graph with such a link asks for. Nothing that is asked for is without a link. Neither the links nor the order in which they are handed on depend on the order of Go maps, or on what the sort does with equals.", "quantifier": "all programs, all orders of map iteration, all unstable sorts", "why_tests_cant": "ranges over all orders of map iteration and all sorts", "anchors": ["internal/metadata/metadata.go: BuildAssignmentRelationships", "internal/spec/assignment_order.go: sortedAssignmentRelationships"]}
{"id": "C120", "title": "The editor suggests what was analysed, each name once and in order", "statement": "The packages, functions, methods and types that the editor suggests are exactly those of the analysed program, each once and sorted; its imports are the paths that are imported and were not analysed; the packages of the user are those at or below the module path. None of this depends on the order of Go maps.", "quantifier": "all programs, module paths, orders of map iteration and sorts", "why_tests_cant": "ranges over all programs and orders of map iteration", "anchors": ["cmd/apispecui/main.go: summarizeMetadata, sortedKeys"]}
{"id": "C121", "title": "A redacted export does not name the module", "statement": "With redaction, the path of the module is in the exported prompt only if it is in fixed words or in the few fields that are not redacted; paths, problems, components, the analysis and the configuration do not bring it in. What does not name the module is exported as it is, and every warning is exported. The owner and name of the module are not shown.", "quantifier": "all reports, configurations and module paths", "why_tests_cant": "ranges over all texts and module paths, and over all ways in which replaced texts and their neighbours can be put together", "anchors": ["internal/insight/export.go: BuildExportMarkdown, moduleRefPrefix"]}
{"id": "C122", "title": "The overview lists each handler that serves several methods", "statement": "The overview has one row for each declared function that serves at least two HTTP methods, and no other row. The row has the function after the last part of its package and lists its methods, each once and in order; rows are in the order of the names. If no two of these functions are called the same, the list does not depend on the order in which the maps are read.", "quantifier": "all packages, files and functions, all arms and methods, all orders of the maps", "why_tests_cant": "ranges over all sets of functions and over all orders in which maps can be read", "anchors": ["internal/insight/overview.go: verbDispatch, lastSegment"]}
{"id": "C123", "title": "For a call, the declaration of the function called is read", "statement": "The assignments recorded with a call are read from the declaration of the function or method called, in the package called: if it is declared it is found, with the last of several declarations; if it is not declared in the packages analysed nothing is read.", "quantifier": "all packages, files and declarations, all calls of functions and of methods with a value or pointer receiver", "why_tests_cant": "ranges over all package paths, names and receiver types, whose joined texts could be equal", "anchors": ["internal/metadata/metadata.go: BuildFuncMap, buildCallGraph"]}
{"id": "C124", "title": "A redacted export of an endpoint does not name the module", "statement": "With redaction, the path of the module is in the export of an endpoint only if it is in fixed words or in the few fields that are not redacted; the path, handler, positions, schemas, problems, calls, source and configuration do not bring it in. Every warning is exported with its kind, the first forty calls of the trace are shown by what is after their last slash, with the interface behind them, and a longer trace is marked as cut.", "quantifier": "all reports about an endpoint, configurations and module paths", "why_tests_cant": "ranges over all texts and module paths, all traces and all ways in which replaced texts and their neighbours can be put together", "anchors": ["internal/insight/export.go: BuildEndpointExportMarkdown, reqStr", "internal/insight/metrics.go: shortLabel"]}
{"id": "C125", "title": "The interface shown behind a call is one that the type implements", "statement": "In the trace of an endpoint, the interface shown behind a resolved call is one that the type of the method implements, with the number of its implementations; no other interface of the type has more, and of those with as many it is the first. Nothing is shown only if none has implementations or the type is unknown. The order in which the types are read makes no difference.", "quantifier": "all types of all packages, all receivers, all orders of the maps", "why_tests_cant": "ranges over all sets of types with equal names and over all orders in which maps can be read", "anchors": ["internal/insight/metrics.go: resolvedInterface, typeIndex"]}
{"id": "C126", "title": "The position that is recorded is where the node is written", "statement": "The index recorded for a position reads back as its file, line and column, whatever positions and texts were recorded before and are recorded later; a position always gets the same index, and so do two that read the same. What is no position or is in no file has no index.", "quantifier": "all histories of recorded positions and texts, all file sets, all positions", "why_tests_cant": "ranges over all histories of a cache and a pool that grow", "anchors": ["internal/metadata/position.go: positionIndex, positionString, formatPosition", "internal/metadata/types.go: StringPool.Get"]}
{"id": "C127", "title": "At a call of an interface the trace goes on in what implements it", "statement": "Where the method called belongs to an interface, the trace of an endpoint goes on exactly in the methods of that name of the types recorded as implementing the interface, as far as calls are recorded in them, each once. A call of what is no interface goes nowhere else.", "quantifier": "all packages, files, interfaces, implementations and recorded calls", "why_tests_cant": "ranges over all sets of types and of recorded calls", "anchors": ["internal/insight/metrics.go: resolveImplementers"]}
{"id": "C128", "title": "The configuration that is suggested is the first that says something", "statement": "The editor suggests the first of the usual file names, in the folder of the project and then in that of its module, at which there is a file that loads as a configuration and sets a section. If there is none it suggests nothing.", "quantifier": "all file systems, all contents of the files, all folders", "why_tests_cant": "ranges over all contents of the files at eight places", "anchors": ["cmd/apispecui/main.go: findSuggestedConfig, looksLikeAPISpecConfig"]}
{"id": "C129", "title": "The version shown is that of the build", "statement": "A version given when the command was linked is shown as it is. Otherwise the version of the module is shown, with a mark, once, if the sources were changed; a build without one of unchanged sources is shown as under development if its revision is known and otherwise by how it was installed. The bare placeholder is never shown. The revision is shown by its first seven characters, its date and the Go version as they are.", "quantifier": "all versions, all settings of a build in any order and number", "why_tests_cant": "ranges over all data a build can carry", "anchors": ["cmd/apispec/main.go: detectVersionInfo, printVersion"]}
{"id": "C130", "title": "The file read for a function called is the one that declares it", "statement": "For a call of a function of a package the file whose syntax is read is one that declares the function; for a method it is one that declares the method of that type, whether its receiver is a pointer or not, whatever other types and functions have the same name. No file is read exactly if the package has nothing of the name.", "quantifier": "all packages, files, functions, types and methods", "why_tests_cant": "ranges over all sets of declarations that share names", "anchors": ["internal/metadata/metadata.go: astFileFromFn"]}
