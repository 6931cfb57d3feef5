{"id": "C01", "title": "Every dependency loads the package it was linked to", "statement": "After a successful resolve, for every package and every dependency it declares, the package found by Node's lookup rule (nearest enclosing node_modules, walking up from the package's own location) is the very package the resolver linked that dependency to.", "quantifier": "all root manifests, registries, lockfiles and all orders in which registry responses arrive", "why_tests_cant": "The tree is built incrementally while responses arrive in arbitrary order; a later placement may shadow an earlier one only in specific interleavings no test suite enumerates.", "anchors": ["crates/node-maintainer/src/resolver.rs: Resolver::run_resolver, place_child, satisfy_dependency", "crates/node-maintainer/src/graph.rs: Graph::resolve_dep, Graph::validate"]}
{"id": "C02", "title": "Placing a package never overwrites another package", "statement": "During a resolve no two packages are ever given the same location in the tree: putting a package in a node_modules folder never replaces an entry of the same name already there (the 'clobbered' error path is never taken).", "quantifier": "all manifests, registries, lockfiles and response orders", "why_tests_cant": "Clobbering needs a particular history of hoists; the code only logs it.", "anchors": ["crates/node-maintainer/src/resolver.rs: place_child"]}
{"id": "C03", "title": "The physical tree is a tree", "statement": "At every moment of a resolve each package other than the root has exactly one parent folder, that parent lists it under its name, following parents always ends at the root, and every package is reachable from the root.", "quantifier": "all reachable resolver states, for every manifest, registry, lockfile and response order", "why_tests_cant": "Invariant over unboundedly many insertions; also what makes every parent walk in the code terminate.", "anchors": ["crates/node-maintainer/src/graph.rs: Node.parent, Node.children, NodeParentIterator", "crates/node-maintainer/src/resolver.rs: place_child"]}
{"id": "C04", "title": "A finished resolve has linked every requirement and nothing else", "statement": "When a resolve succeeds, every dependency requirement of every package in the tree (prod and optional for all, dev for the root only) has been linked exactly once, and there are no links for anything that was not declared.", "quantifier": "all manifests, registries, lockfiles and response orders", "why_tests_cant": "Requirements are processed through a queue, a de-duplicating fetch table and a chunked stream; losing one only happens under particular interleavings.", "anchors": ["crates/node-maintainer/src/resolver.rs: run_resolver", "crates/node-maintainer/src/graph.rs: Node::new"]}
{"id": "C05", "title": "Every link is to a package that meets the requirement", "statement": "Whenever the resolver links a dependency, the chosen package either satisfies the requested specifier, or is exactly the package the registry returned when asked for that specifier.", "quantifier": "all manifests, registries, lockfiles and response orders", "why_tests_cant": "Quantifies over all histories of reuse (existing node, lockfile entry, fresh fetch).", "anchors": ["crates/node-maintainer/src/resolver.rs: satisfy_dependency, satisfy_from_lockfile, place_child"]}
{"id": "C06", "title": "The resolver neither stops early nor waits for nothing", "statement": "In every reachable state the outstanding-request count equals the number of requirements waiting for a response; hence the loop ends only when nothing is pending, and it never waits for a response when no request is pending.", "quantifier": "all reachable resolver states under every response order", "why_tests_cant": "Counter bookkeeping across batching and de-duplication; a leak shows up as a hang or a silently incomplete tree only under some schedules.", "anchors": ["crates/node-maintainer/src/resolver.rs: run_resolver (in_flight, fetches)"]}
{"id": "C07", "title": "Identical requests share one fetch and every requester is served", "statement": "While a specifier is being fetched no second fetch for the same specifier is started, and when it arrives every requirement that asked for it is linked.", "quantifier": "all reachable resolver states under every response order", "why_tests_cant": "De-duplication races depend on the order requests and responses interleave.", "anchors": ["crates/node-maintainer/src/resolver.rs: run_resolver (fetches map)"]}
{"id": "C08", "title": "The resolved tree does not depend on network timing", "statement": "With the same manifest, registry contents and lockfile, a resolve produces the same tree whatever order registry responses arrive in.", "quantifier": "all pairs of response orders for all manifests and registries", "why_tests_cant": "Needs comparing all interleavings pairwise.", "anchors": ["crates/node-maintainer/src/resolver.rs: run_resolver ('Order doesn't matter here')"]}
{"id": "C09", "title": "A failed fetch fails the whole resolve", "statement": "If the registry lookup for any requirement fails, the resolve reports an error and no tree is returned; success means every fetch succeeded.", "quantifier": "all manifests, registries, failure sets and response orders", "why_tests_cant": "Failure may arrive at any point of any interleaving.", "anchors": ["crates/node-maintainer/src/resolver.rs: run_resolver"]}
{"id": "C10", "title": "A lockfile entry is used only if Node would load it and it satisfies the request", "statement": "When a dependency is taken from the lockfile, the entry used is the nearest entry on the path Node's lookup would walk from the dependent, and the package it describes satisfies the requested specifier; a nearer non-satisfying entry is never skipped in favour of a farther one.", "quantifier": "all lockfiles, dependents and specifiers", "why_tests_cant": "Path walk over arbitrary lockfile contents and depths.", "anchors": ["crates/node-maintainer/src/resolver.rs: satisfy_from_lockfile", "crates/node-maintainer/src/lockfile.rs: LockfileNode::to_package"]}
{"id": "C11", "title": "Locked mode never returns a tree that differs from the lockfile", "statement": "With the locked option and a lockfile present, a successful resolve returns a tree whose lockfile form equals the given lockfile; any difference is reported as a mismatch error.", "quantifier": "all manifests, lockfiles, registries and response orders", "why_tests_cant": "Universal over resolver histories.", "anchors": ["crates/node-maintainer/src/resolver.rs: run_resolver (locked)", "crates/node-maintainer/src/maintainer.rs: NodeMaintainerOptions::locked"]}
{"id": "C12", "title": "A lockfile orogene wrote is accepted back by locked mode", "statement": "If a resolved tree is written out as package-lock.kdl and read back, comparing it with the same tree in locked mode does not report a mismatch.", "quantifier": "all resolvable trees", "why_tests_cant": "Requires the write/read round trip to be the identity for every tree.", "anchors": ["crates/node-maintainer/src/lockfile.rs: Lockfile::to_kdl, Lockfile::from_kdl, LockfileNode::to_kdl, LockfileNode::from_kdl", "crates/node-maintainer/src/resolver.rs: run_resolver (locked)"]}
{"id": "C13", "title": "Lockfile serialisation round-trips", "statement": "Reading back a written lockfile yields the same version, the same set of packages, and for every package the same path, version, source, integrity and dependency requirements.", "quantifier": "all lockfiles produced by a resolve (and all lockfiles meeting the stated well-formedness condition)", "why_tests_cant": "Round-trip over unbounded maps, paths and optional fields.", "anchors": ["crates/node-maintainer/src/lockfile.rs: Lockfile::to_kdl, Lockfile::from_kdl, LockfileNode::to_kdl, from_kdl"]}
{"id": "C14", "title": "Lockfile output is canonical", "statement": "Two lockfiles with the same contents are written as the identical document, independently of the order in which packages and dependencies were inserted.", "quantifier": "all pairs of equal lockfiles with different insertion orders", "why_tests_cant": "Permutation invariance over arbitrary sizes.", "anchors": ["crates/node-maintainer/src/lockfile.rs: Lockfile::to_kdl, LockfileNode::to_kdl_deps"]}
{"id": "C15", "title": "The lockfile has exactly one entry per installed package", "statement": "Converting a resolved tree to a lockfile gives one entry for each non-root package, keyed by its location, with no entry lost or overwritten, and each entry records exactly the links of that package grouped by kind.", "quantifier": "all reachable trees", "why_tests_cant": "Injectivity of locations over unbounded trees.", "anchors": ["crates/node-maintainer/src/graph.rs: Graph::to_lockfile, node_lockfile_node, node_path"]}
{"id": "C16", "title": "Re-resolving from a just-written lockfile reproduces the tree", "statement": "Resolving again with the same manifest and the lockfile just produced yields the same tree (so locked installs of an unchanged project succeed).", "quantifier": "all manifests, registries and response orders of the first run", "why_tests_cant": "Compares two complete resolver histories.", "anchors": ["crates/node-maintainer/src/resolver.rs: run_resolver, satisfy_from_lockfile, place_child"]}
{"id": "C17", "title": "Lockfile source precedence", "statement": "An explicitly supplied KDL lockfile wins over an explicitly supplied npm lockfile, which wins over package-lock.kdl, then package-lock.json, then npm-shrinkwrap.json in the project; a file that cannot be read or parsed falls through to the next one.", "quantifier": "all combinations of presence, readability and validity of the five sources", "why_tests_cant": "Small case space but with fall-through semantics; stated for arbitrary contents.", "anchors": ["crates/node-maintainer/src/maintainer.rs: NodeMaintainerOptions::get_lockfile"]}
{"id": "C18", "title": "npm lockfiles are imported faithfully", "statement": "Each package entry of an npm package-lock v2/v3 becomes exactly one entry at the same physical location with the same version, source, integrity and dependency maps; locations are preserved for arbitrarily nested and scoped paths.", "quantifier": "all npm lockfile package paths", "why_tests_cant": "Arbitrary nesting depth and names.", "anchors": ["crates/node-maintainer/src/lockfile.rs: Lockfile::from_npm, LockfileNode::from_npm"]}
{"id": "C19", "title": "Version selection is sound and maximal", "statement": "Resolving a registry specifier yields a version that exists in the packument and satisfies the request; if the default tag's version satisfies the request it is chosen, otherwise the highest satisfying version; if none satisfies an error is returned.", "quantifier": "all packuments, tags and version/range/tag requests", "why_tests_cant": "Any set of versions and tags.", "anchors": ["crates/nassun/src/resolver.rs: PackageResolver::get_resolution, max_satisfying_version"]}
{"id": "C20", "title": "Satisfaction test agrees with the request", "statement": "A resolved registry package satisfies an exact-version request iff versions are equal, a range iff the range contains the version; kinds never cross-satisfy; aliases are judged by their target.", "quantifier": "all resolutions and specifiers including nested aliases", "why_tests_cant": "Recursive specifiers, arbitrary versions.", "anchors": ["crates/nassun/src/resolver.rs: PackageResolution::satisfies", "crates/oro-package-spec/src/lib.rs: PackageSpec::target"]}
{"id": "C21", "title": "Specifier printing and parsing round-trip", "statement": "Printing a parsed package specifier and parsing it again gives the same specifier.", "quantifier": "all parseable specifiers", "why_tests_cant": "Unbounded strings and grammars with ordered choice.", "anchors": ["crates/oro-package-spec/src/lib.rs: Display, FromStr", "crates/oro-package-spec/src/parsers/*.rs", "crates/oro-package-spec/src/gitinfo.rs"]}
{"id": "C22", "title": "An alias's target is never an alias and is found for any nesting", "statement": "The target of a specifier is the innermost non-alias specifier, for aliases nested to any depth; whether a specifier is an npm one is decided by its target; mutating through the target changes only the target.", "quantifier": "all specifiers", "why_tests_cant": "Recursive structure of unbounded depth.", "anchors": ["crates/oro-package-spec/src/lib.rs: target, target_mut, is_npm"]}
{"id": "C23", "title": "A checked tarball never yields wrong data successfully", "statement": "Reading a tarball with an expected integrity to its end succeeds only if the concatenation of everything delivered matches the integrity; on mismatch the reader gets an error instead of end-of-data, whatever the chunk sizes.", "quantifier": "all byte streams, chunkings and integrity values", "why_tests_cant": "All chunk splits of all contents.", "anchors": ["crates/nassun/src/tarball.rs: Tarball::poll_read"]}
{"id": "C24", "title": "Buffering a tarball preserves its bytes", "statement": "Moving a tarball into its temporary form (memory or spilled file) yields exactly the bytes read, whether or not the in-memory limit is crossed and however the reads are chunked; memory use never exceeds the limit.", "quantifier": "all byte streams, chunkings and limits", "why_tests_cant": "Boundary at the spill threshold for every chunking.", "anchors": ["crates/nassun/src/tarball.rs: Tarball::into_temp, MAX_IN_MEMORY_TARBALL_SIZE"]}
{"id": "C25", "title": "Extraction writes only inside the package directory", "statement": "Extracting any tarball creates files only below the destination directory.", "quantifier": "all tarball entry paths", "why_tests_cant": "Adversarial path contents.", "anchors": ["crates/nassun/src/tarball.rs: TempTarball::extract_to_dir, strip_one"]}
{"id": "C26", "title": "Packages with install scripts are never hard-linked to the cache", "statement": "If a package declares preinstall, install or postinstall scripts, all its files are private copies (copy or reflink), so running its scripts cannot modify the shared cache; regardless of where package.json appears in the archive and of the configured link mode.", "quantifier": "all entry orders, manifests and link modes", "why_tests_cant": "package.json may appear anywhere in the stream; earlier entries must be re-extracted.", "anchors": ["crates/nassun/src/tarball.rs: extract_to_dir, extract_from_cache", "crates/nassun/src/package.rs: ExtractMode, extract_from_cache"]}
{"id": "C27", "title": "A bad or missing cache entry never produces a wrong install", "statement": "Extracting a package with known integrity yields content matching that integrity or an error, whether it is served from the cache, from a corrupted cache, or from the network; a broken cache entry is evicted and the network used.", "quantifier": "all cache states and network contents", "why_tests_cant": "All combinations of cache corruption points and network responses.", "anchors": ["crates/nassun/src/package.rs: extract_to_dir_inner, extract_from_cache, clean_from_cache"]}
{"id": "C28", "title": "Normalised bin entries have safe command names", "statement": "After normalising a package manifest, every command name is a single non-empty path component (no separators) so linking it creates a file directly inside .bin; targets are relative.", "quantifier": "all manifests", "why_tests_cant": "Adversarial strings.", "anchors": ["crates/oro-common/src/build_manifest.rs: BuildManifest::normalize"]}
{"id": "C29", "title": "Lifecycle scripts run after the scripts of their dependencies", "statement": "For each lifecycle event, a package's script starts only after the scripts of all packages it (transitively) depends on that also have pending scripts have finished.", "quantifier": "all dependency graphs and all completion orders of concurrent scripts", "why_tests_cant": "All interleavings under concurrency.", "anchors": ["crates/node-maintainer/src/linkers/mod.rs: run_scripts"]}
{"id": "C30", "title": "Every pending lifecycle script runs exactly once and the phase terminates", "statement": "If no script fails, each pending package's script for an event is run exactly once and the phase ends.", "quantifier": "all dependency graphs, all completion orders, all concurrency limits", "why_tests_cant": "Deadlock freedom and exactly-once over all schedules and graphs.", "anchors": ["crates/node-maintainer/src/linkers/mod.rs: run_scripts"]}
{"id": "C31", "title": "Only failures of required packages abort the script phase", "statement": "A failing script of a package every dependent of which declared it optional does not fail the phase; a failing script of any other package does.", "quantifier": "all graphs and failure sets", "why_tests_cant": "Any mix of incoming dependency kinds.", "anchors": ["crates/node-maintainer/src/linkers/mod.rs: run_dep_script", "crates/node-maintainer/src/graph.rs: Graph::is_optional"]}
{"id": "C32", "title": "Pruning a hoisted install removes everything that should not be there and keeps what should", "statement": "Before extraction, every entry in any node_modules folder that is not an unchanged package of the new tree is removed, and every unchanged package is kept.", "quantifier": "all on-disk trees, previous lockfiles and new trees", "why_tests_cant": "Arbitrary trees, scopes and nesting.", "anchors": ["crates/node-maintainer/src/linkers/hoisted.rs: prune"]}
{"id": "C33", "title": "Applying makes node_modules equal to the resolved tree", "statement": "After a successful hoisted apply starting from any state left by a previous successful apply, the set of installed packages and their contents are exactly those of the new tree; applying again extracts and removes nothing.", "quantifier": "all pairs of trees; all previous states", "why_tests_cant": "Universal over consecutive installs.", "anchors": ["crates/node-maintainer/src/linkers/hoisted.rs: prune, extract", "crates/node-maintainer/src/maintainer.rs: NodeMaintainer::prune, extract"]}
{"id": "C34", "title": "An interrupted apply is repaired by the next apply", "statement": "If an apply is interrupted at any point and a later apply completes, the resulting node_modules is the same as that of an uninterrupted install.", "quantifier": "all crash points, all trees before and after", "why_tests_cant": "Every prefix of the filesystem operations is a crash point.", "anchors": ["crates/node-maintainer/src/linkers/hoisted.rs: prune, extract (META_FILE_NAME)", "crates/node-maintainer/src/resolver.rs: load_actual"]}
{"id": "C35", "title": "Command links exist for every installed package after apply", "statement": "After a successful apply, each command declared by an installed package is available in the corresponding .bin folder, also when that package was already installed before.", "quantifier": "all trees and previous states", "why_tests_cant": "Depends on history of installs.", "anchors": ["crates/node-maintainer/src/linkers/hoisted.rs: link_bins, extract (pending_rebuild)", "crates/node-maintainer/src/linkers/isolated.rs: link_bins, link_dep_bins", "crates/node-maintainer/src/linkers/mod.rs: link_bin, mkdirp"]}
{"id": "C36", "title": "Lockfile is written only after everything succeeded; lockfile-only touches nothing else", "statement": "apply writes package-lock.kdl only after resolve, prune, extract and rebuild all succeeded; with lockfile-only nothing under node_modules is changed; with no-apply nothing is done; with no-lockfile no lockfile is written; with no-scripts no lifecycle script runs.", "quantifier": "all option combinations and all failure points", "why_tests_cant": "Failure injection at every step of every option set.", "anchors": ["src/apply_args.rs: ApplyArgs::execute", "crates/node-maintainer/src/linkers/mod.rs: rebuild"]}
{"id": "C37", "title": "Locating a package by path is the inverse of its location", "statement": "For every package in the tree, looking up its own node_modules path (or any file path inside it) returns that package; paths outside any package return none.", "quantifier": "all trees and paths", "why_tests_cant": "Arbitrary depths, scopes and names.", "anchors": ["crates/node-maintainer/src/graph.rs: node_at_path, node_path"]}
{"id": "C38", "title": "Credentials are sent only to the registry they belong to", "statement": "An Authorization header is attached to a request only if the request's host is that of the configured registry and its path is under the registry's path; credentials of another registry are never sent.", "quantifier": "all URLs, redirects and credential maps", "why_tests_cant": "All URL pairs.", "anchors": ["crates/oro-client/src/auth_middleware.rs: AuthMiddleware::handle", "crates/oro-client/src/client.rs: OroClientBuilder"]}
{"id": "C39", "title": "Stored credentials can be read back and cleared", "statement": "Saving credentials for a registry and reading them back returns the same credentials; saving or clearing for one registry does not affect other registries or other settings.", "quantifier": "all configuration documents, registries and credentials", "why_tests_cant": "All prior document shapes.", "anchors": ["crates/oro-npm-account/src/config.rs: set_credentials_by_uri, get_credentials_by_uri, clear_crendentials_by_uri, set_scoped_registry"]}
{"id": "C40", "title": "Configuration precedence", "statement": "A value given on the command line (also in its negated form) is never overridden by configuration; otherwise the project file beats the environment, which beats the global file, which beats the defaults.", "quantifier": "all command lines and configuration contents", "why_tests_cant": "All combinations of layers and option kinds.", "anchors": ["crates/oro-config/src/lib.rs: layered_args, with_negations, OroConfigOptions::load"]}
{"id": "C41", "title": "Editing package.json preserves its formatting", "statement": "Reading a package.json and writing it back keeps the detected indentation, line ending and trailing newline, and the same JSON value.", "quantifier": "all JSON documents written in a uniform style", "why_tests_cant": "All indents, line endings and nestings.", "anchors": ["crates/oro-pretty-json/src/lib.rs: from_str, to_string_pretty, detect_indentation, detect_line_end"]}
{"id": "C42", "title": "Concurrent-safe directory creation with a cache", "statement": "Creating a directory through the cached mkdirp succeeds and leaves the directory and all its ancestors existing, whatever directories already exist; the cache never claims a directory that does not exist.", "quantifier": "all filesystem states, cache states and sequences of calls", "why_tests_cant": "All histories of calls and preexisting directories.", "anchors": ["crates/node-maintainer/src/linkers/mod.rs: mkdirp", "crates/nassun/src/tarball.rs: mkdirp"]}
{"id": "C43", "title": "Registry choice follows the package scope", "statement": "A scoped package is fetched from the registry configured for its scope, otherwise from the default registry, otherwise from registry.npmjs.org; a memoised packument is returned only for the package it was fetched for.", "quantifier": "all specifiers, registry maps and sequences of lookups", "why_tests_cant": "All histories of memoised lookups.", "anchors": ["crates/nassun/src/fetch/npm.rs: pick_registry, corgi_packument, packument"]}
{"id": "C44", "title": "Reduced and full metadata agree", "statement": "Converting full registry metadata to the reduced form and back preserves name, version, dependency maps, bundled dependencies, dist information and tags.", "quantifier": "all packuments", "why_tests_cant": "All field combinations.", "anchors": ["crates/oro-common/src/packument.rs", "crates/oro-common/src/manifest.rs"]}
{"id": "C45", "title": "Scripts see the right command path", "statement": "A lifecycle script's PATH consists of the inherited entries and the node_modules/.bin folders of the package directory and its ancestors up to and including the project root, innermost first, and nothing above the project root.", "quantifier": "all package locations and inherited PATH values", "why_tests_cant": "Arbitrary depth.", "anchors": ["crates/oro-script/src/lib.rs: set_all_paths"]}
{"id": "C46", "title": "Isolated store gives each package its own folder and links each declared dependency", "statement": "In isolated mode each package is stored in its own store folder, and each package sees exactly its declared dependencies, linked to the store folder of the package the resolver chose.", "quantifier": "all trees", "why_tests_cant": "Injectivity of folder names and completeness of links over all trees.", "anchors": ["crates/node-maintainer/src/linkers/isolated.rs: package_dir_name, extract, link_deps"]}
{"id": "C47", "title": "Isolated pruning keeps valid links and removes stale ones", "statement": "In isolated mode, pruning keeps store folders of packages in the new tree and removes all others, and keeps exactly the dependency links that point where the new tree says.", "quantifier": "all on-disk states and trees", "why_tests_cant": "All states of links and store.", "anchors": ["crates/node-maintainer/src/linkers/isolated.rs: prune"]}
{"id": "C48", "title": "add and remove edit exactly the intended dependency entries", "statement": "Adding a package leaves it in exactly one dependency section of package.json (the requested one) and changes no other dependency; removing deletes it from all four sections and nothing else; package.json is written only after the install succeeded.", "quantifier": "all manifests and package names", "why_tests_cant": "All prior manifest shapes.", "anchors": ["src/commands/add.rs: AddCmd", "src/commands/remove.rs: RemoveCmd"]}
{"id": "C49", "title": "Windows shims pass through what the script's header says", "statement": "Shim generation parses the interpreter, arguments and environment assignments of a script's header line and rewrites $VAR references to %VAR% pairs without altering other text.", "quantifier": "all header lines and variable strings", "why_tests_cant": "Arbitrary strings.", "anchors": ["crates/oro-shim-bin/src/lib.rs: replace_dollar_with_percent_pair, convert_to_set_command"]}
{"id": "C50", "title": "Old logs are bounded and the newest are kept", "statement": "After cleaning, fewer than five log files remain, and those kept are the most recent by name; nothing is removed when fewer than five exist.", "quantifier": "all directory contents", "why_tests_cant": "Any number of files.", "anchors": ["src/lib.rs: clean_old_logs, MAX_RETAINED_LOGS"]}
{"id": "C51", "title": "Option strings KEY=VALUE and {KEY}SUBKEY=VALUE are split at the documented separators and never crash", "statement": "Parsing a key/value option returns the text before the first '=' and after it, and a nested option returns the brace content, the subkey and the value; malformed input is an error, not a crash.", "quantifier": "all strings", "why_tests_cant": "Arbitrary strings.", "anchors": ["src/lib.rs: parse_key_value, parse_nested_key_value"]}
{"id": "C52", "title": "No package appears from nowhere", "statement": "At every moment of a resolve each package in the tree, other than the project itself, is one the registry returned for some specifier or one a lockfile entry describes, and its requirements are those of that package's own manifest.", "quantifier": "all registries, lockfiles, manifests and schedules", "why_tests_cant": "must hold after every interleaving of responses and lockfile hits", "anchors": ["crates/node-maintainer/src/resolver.rs: run_resolver, place_child", "crates/node-maintainer/src/graph.rs: Node::new"]}
{"id": "C53", "title": "A resolved package satisfies the specifier it was resolved from", "statement": "Resolving a specifier returns a package that the satisfaction test accepts for the same specifier, so the same requirement met again (elsewhere in the tree, or from a lockfile) is recognised as satisfied.", "quantifier": "all specifiers (registry, directory, git, aliases), registries and working directories", "why_tests_cant": "ranges over all registry contents and request kinds", "anchors": ["crates/nassun/src/resolver.rs: PackageResolution::satisfies", "crates/nassun/src/resolver.rs: PackageResolver::get_resolution"]}
{"id": "C54", "title": "Packages published with only a SHA-1 checksum can be installed", "statement": "For a package whose registry metadata has a shasum but no integrity field, data whose SHA-1 digest equals the shasum is accepted.", "quantifier": "all such metadata, all tarball contents", "why_tests_cant": "Needs every digest value and stream, not a sample; test registries publish integrity fields.", "anchors": ["crates/nassun/src/resolver.rs: get_resolution", "crates/nassun/src/tarball.rs: Tarball::poll_read"]}
{"id": "C55", "title": "Every file of a package is extracted at its own path", "statement": "After a successful extraction each regular file of the archive is found at its archive path (without the first component) below the destination.", "quantifier": "all archives, including those with long-name records", "why_tests_cant": "Path forms and archive encodings are unbounded.", "anchors": ["crates/nassun/src/tarball.rs: TempTarball::extract_to_dir"]}
{"id": "C56", "title": "At most the configured number of lifecycle scripts run at once", "statement": "With a script concurrency limit of n ≥ 1, at no time are the scripts of more than n packages in progress.", "quantifier": "all dependency graphs, all completion orders, all limits", "why_tests_cant": "All interleavings.", "anchors": ["crates/node-maintainer/src/linkers/mod.rs: run_scripts (script_concurrency)"]}
{"id": "C57", "title": "The project's folder is found from anywhere inside it", "statement": "Without an explicit root, the project is the nearest folder, from the current one outwards, that has a node_modules folder or a package.json file, and none is found exactly when no such folder exists.", "quantifier": "all current folders and file trees", "why_tests_cant": "Arbitrary depths and arrangements.", "anchors": ["src/lib.rs: pkg_root, Orogene::build_config"]}
{"id": "C58", "title": "At most the configured number of requests are under way while resolving", "statement": "With concurrency n, in every state resolution can reach, at most n package requests are running or answered and not yet worked on.", "quantifier": "all dependency graphs, registries, limits and completion orders", "why_tests_cant": "All interleavings of answers.", "anchors": ["crates/node-maintainer/src/resolver.rs: Resolver::run_resolver (buffer_unordered/ready_chunks)"]}
{"id": "C59", "title": "Packages are worked on outermost first, alphabetically", "statement": "After each batch of answers, the packages waiting to have their dependencies resolved are exactly those just added, sorted by how deep they are placed and then by name.", "quantifier": "all dependency graphs, registries and completion orders", "why_tests_cant": "All interleavings and graph shapes.", "anchors": ["crates/node-maintainer/src/resolver.rs: Resolver::run_resolver (sort of q)"]}
{"id": "C61", "title": "Every documented form of a specifier is read as what it says", "statement": "Names with and without scope, versions, ranges, tags, the npm: prefix, paths, file: paths, git repositories (owner/repo, host:owner/repo, git+url, with #commit or #semver:range) and aliases of these are parsed to exactly that specifier; no text has two readings.", "quantifier": "all names, versions, ranges, tags, paths, owners, repositories, addresses, commits", "why_tests_cant": "Infinitely many texts; alternatives are tried in order and can shadow each other.", "anchors": ["crates/oro-package-spec/src/parsers/*.rs", "crates/oro-package-spec/src/lib.rs: PackageSpec::from_str"]}
{"id": "C60", "title": "A lockfile entry reads back as the package it records", "statement": "Reading an entry of a lockfile gives, without asking anyone, a package with the recorded name, place, version, address, integrity, directory or repository and commit, and the recorded requirements.", "quantifier": "all lockfiles and entries, all names, versions, addresses, directories and git specifiers", "why_tests_cant": "Infinitely many entries; the text is put together and parsed again, so every form of specifier matters.", "anchors": ["crates/node-maintainer/src/lockfile.rs: LockfileNode::to_package", "crates/node-maintainer/src/graph.rs: Graph::node_lockfile_node"]}
{"id": "C62", "title": "Every kind of dependency can be resolved and installed", "statement": "Resolving a requirement on a registry package, a directory or a git repository never crashes; it gives the package by the name it was required under, found at the registry, directory or repository that was written; and the package can then be installed.", "quantifier": "all requirements, names, paths, repositories, registry answers, directory and repository contents", "why_tests_cant": "The combinations of specifier forms, aliases and surroundings are unbounded.", "anchors": ["crates/nassun/src/client.rs: resolve_spec, pick_fetcher", "crates/nassun/src/fetch/dir.rs", "crates/nassun/src/fetch/git.rs", "crates/nassun/src/fetch/npm.rs"]}
{"id": "C63", "title": "A git dependency's contents are those of the requested repository and commit", "statement": "The name, version and manifest of a git dependency are those in the repository that was written, at the commit that was written, or at the highest tag in the range, or else at the default branch; and whenever these exist they are found.", "quantifier": "all git specifiers, repositories, tags, commits, hosts and archives", "why_tests_cant": "Repositories and tag sets are unbounded; hosts cannot be contacted in tests.", "anchors": ["crates/nassun/src/fetch/git.rs: fetch_to_temp_dir, fetch_clone, fetch_tarball", "crates/oro-package-spec/src/gitinfo.rs: ssh, https, tarball"]}
{"id": "C64", "title": "A configuration file sets the options it writes", "statement": "Each node in the options block of oro.kdl sets the option of its name to the value written: a flag, a text, number or truth value, a list, or a table of properties or of nested nodes; nothing that is written is silently dropped.", "quantifier": "all configuration documents, of any depth and size", "why_tests_cant": "Documents are unbounded and nested.", "anchors": ["crates/oro-config/src/kdl_source.rs: KdlSource", "src/lib.rs: build_config"]}
{"id": "C65", "title": "Credentials saved by oro login are used by the next command", "statement": "After oro login saved credentials for a registry in a configuration file, any later command that reads the file sends exactly these credentials to the registry, whatever its other options, unless another source sets auth.", "quantifier": "all configuration documents, registries, credentials, commands, options and orders in which hash tables are walked", "why_tests_cant": "Documents, option sets and iteration orders are unbounded; the way leads through five pieces of code.", "anchors": ["crates/oro-npm-account/src/config.rs: set_credentials_by_uri", "src/lib.rs: build_config, layer_command_args, parse_nested_key_value", "src/client_args.rs: TryFrom<ClientArgs>"]}
{"id": "C66", "title": "oro login saves exactly the credentials that were given or granted", "statement": "oro login ends successfully only with the credentials given on the command line or else the token the registry granted, after the dialogue the registry asked for (browser, password, one-time password, waiting as long as it says); then every later command uses them for the registry. Otherwise it reports an error and leaves the configuration file as it was. What the user types is sent to the registry only.", "quantifier": "all command lines, configuration files, user inputs and sequences of server answers of any length", "why_tests_cant": "The number of polls and the server's answers are unbounded and adversarial.", "anchors": ["src/commands/login.rs: execute", "crates/oro-npm-account/src/login.rs: login", "crates/oro-client/src/api/login.rs: login_web, login_couch, fetch_done_url"]}
{"id": "C67", "title": "oro logout removes the credentials and revokes the token", "statement": "After a successful oro logout no later command has credentials for the registry, other registries and options are as before, and a token was revoked at the registry; secrets other than the token are not sent. After a failed one the file is as before.", "quantifier": "all configuration files, registries, credentials and server answers", "why_tests_cant": "Documents and credentials are unbounded; the defect shows only when login and logout are combined.", "anchors": ["src/commands/logout.rs: execute", "crates/oro-client/src/api/logout.rs: delete_token", "crates/oro-npm-account/src/config.rs: get_credentials_by_uri, clear_crendentials_by_uri"]}
{"id": "C68", "title": "credentials accompany requests to private registries", "statement": "With credentials configured for a registry, every request for the description or an archive of a package that is taken from this registry carries them.", "quantifier": "all credentials, registries, scopes, package names and archive addresses", "why_tests_cant": "Whether a header is attached depends on a comparison of two addresses, both arbitrary; a mock server on one host shows only the good case.", "anchors": ["src/nassun_args.rs: to_nassun", "crates/nassun/src/fetch/npm.rs: packument, tarball", "crates/oro-client/src/api/packument.rs: packument", "crates/oro-client/src/api/stream_external.rs: stream_external", "crates/oro-client/src/auth_middleware.rs: AuthMiddleware"]}
{"id": "C69", "title": "a scope saved with a registry is taken from it by later commands", "statement": "After a login with a scope, every later command takes the packages of this scope from the registry of the login, and those of every other scope from where they were taken before.", "quantifier": "all configuration files, scopes, registries and orders in which options are read", "why_tests_cant": "The order in which the options come out of the configuration is not fixed, and files are unbounded.", "anchors": ["crates/oro-npm-account/src/config.rs: set_scoped_registry", "src/lib.rs: scoped_registries, layer_command_args, parse_key_value", "crates/oro-config/src/lib.rs: layered_args", "src/nassun_args.rs: to_nassun", "crates/nassun/src/fetch/npm.rs: pick_registry"]}
{"id": "C70", "title": "first-time setup asks once, and telemetry is opt-in", "statement": "On the first run at a terminal the user is asked whether to send reports; the answer is recorded, nothing else in the configuration file changes, and later commands neither ask again nor act against the answer. Reports are sent only if the user agreed to it; --no-telemetry switches them off.", "quantifier": "all configuration files, command lines, answers, and sequences of a first and a later run in or outside CI and terminals", "why_tests_cant": "It relates runs to each other through a file of any content; tests run in CI, where the setup is skipped.", "anchors": ["src/lib.rs: first_time_setup, prompt_telemetry_opt_in, setup_telemetry, Orogene.first_time, Orogene.telemetry", "crates/oro-config/src/lib.rs: layered_args"]}
{"id": "C71", "title": "proxy settings are followed", "statement": "With a proxy's address every request goes through this proxy with the address's credentials, except to the excluded hosts (the setting's, else the environment's); without one, and with proxies switched off, requests go out directly. In the library the last setting counts.", "quantifier": "all options, addresses, hosts, environments and sequences of builder calls", "why_tests_cant": "Orders of calls and addresses are unbounded; a request that avoids the proxy still succeeds in a test.", "anchors": ["crates/oro-client/src/client.rs: OroClientBuilder::proxy, proxy_url, no_proxy_domain, build, get_no_proxy_domain", "src/client_args.rs: TryFrom<ClientArgs>"]}
{"id": "C72", "title": "a package gets exactly the commands it declares", "statement": "The commands of an installed package are those its manifest declares (bin as text, table or list; directories.bin), each with the declared file of the package.", "quantifier": "all manifests, file systems, working directories and hash orders", "why_tests_cant": "Adversarial names and paths; tests run in the package's own folder, where the wrong lookup is right.", "anchors": ["crates/oro-common/src/build_manifest.rs: BuildManifest::normalize", "crates/nassun/src/tarball.rs: extract", "crates/node-maintainer/src/linkers/hoisted.rs: extract, link_bins", "crates/node-maintainer/src/linkers/isolated.rs: extract, link_dep_bins"]}
{"id": "C73", "title": "lifecycle phases run in order, and none after a failure", "statement": "All preinstall scripts end before commands are linked, commands are linked before any install script begins, all install scripts end before any postinstall script begins; each pending package is handled once per event; the first failure is the last thing that happens and is the result; with scripts switched off only commands are linked.", "quantifier": "all dependency graphs, sets of pending packages, concurrency limits, script outcomes and schedules", "why_tests_cant": "Schedules of concurrent scripts are unbounded and nondeterministic.", "anchors": ["crates/node-maintainer/src/linkers/mod.rs: Linker::rebuild, run_scripts, run_dep_script"]}
{"id": "C74", "title": "what `oro add` writes into package.json", "statement": "`oro add` of a registry package, asked for as `name`, `name@request`, `other@npm:name` or `other@npm:name@request`, writes an entry under the name the package goes by whose requirement is the prefix followed by the version that was found (after `npm:name@` if another name was given). A later install reads that entry as a requirement on the same package, the version found meets it, every version later chosen for it is in the written range, and with an empty prefix it is exactly that version. For a repository the entry leads to the same repository at the same commit or range. The entries are in the section asked for and in no other; all other entries stay as they were.", "quantifier": "every text of one of the documented forms, prefix, registry contents, repository contents, package.json and list of packages asked for", "why_tests_cant": "the entry is printed from one data structure and read back by a hand-written parser; agreement has to hold for all names, versions, prefixes and registry states, and for all later registry states", "anchors": ["src/commands/add.rs AddCmd::execute (46-122), add_to_manifest, remove_from_manifest", "crates/oro-package-spec/src/lib.rs PackageSpec::target_mut, requested", "crates/nassun/src/client.rs Nassun::resolve"]}
{"id": "C75", "title": "installing from a lockfile that settles everything; removing dependencies", "statement": "Resolving with a lockfile in which every requirement of every needed package is met by the nearest package of that name (and by no other needed one around) asks the registry for nothing, never fails, ends after at most as many steps as the lockfile has packages (and the project), and installs exactly the packages the project needs, each with the version and at the place in the lockfile; every requirement is linked to the package that is loaded. If the last install gave such a tree (every requirement is met by the package it loads, and by no other of that name in the folders around), and requirements are then taken out of package.json (`oro remove`) and the tree is resolved again from the lockfile that install wrote, nothing is asked for, all packages that are still needed stay where they were with the same version, and all others are gone.", "quantifier": "every manifest, lockfile, registry contents, schedule of the resolver, set of removed requirements", "why_tests_cant": "it must hold for every shape of tree and lockfile and every order of events; a test fixes one of each", "anchors": ["crates/node-maintainer/src/resolver.rs run_resolver (52-276), satisfy_from_lockfile (303-344), place_child (346-440)", "crates/node-maintainer/src/graph.rs Graph::to_lockfile", "src/commands/remove.rs RemoveCmd::execute"]}
{"id": "C76", "title": "projects without version conflicts", "statement": "If under each name there is one package that meets every requirement on that name (the one in the lockfile, or, where the lockfile has none, the one the registry answers to each of these requirements), resolving never fails, asks the registry only for names the lockfile does not have, ends after a number of steps given by the manifests, and installs exactly the needed packages, each once, at the top level of node_modules; every requirement is linked to the package that is loaded. In particular adding a dependency to such a project leaves the locked packages at their versions and places, and the result does not depend on the order of the responses.", "quantifier": "every manifest, registry contents, lockfile, order of responses, concurrency", "why_tests_cant": "it must hold for every project of this kind and every order of responses; a test fixes one of each", "anchors": ["crates/node-maintainer/src/resolver.rs run_resolver (52-276), satisfy_dependency (278-301), satisfy_from_lockfile (303-344), place_child (346-440)"]}
{"id": "C77", "title": "every resolve comes to an end", "statement": "If the registry has finitely many packages and answers every request, resolving ends after finitely many steps.", "quantifier": "every manifest, registry contents, order of responses", "why_tests_cant": "that a run does not end cannot be seen by running it, and it must end for every registry", "anchors": ["crates/node-maintainer/src/resolver.rs run_resolver (52-276), place_child (346-440)"]}
{"id": "C78", "title": "a requirement gets the package it names", "statement": "Every requirement on a registry package is linked to a version of the very package it names (for an alias, of the package the alias stands for): never to a package of another name that happens to be installed in a folder of that name. In particular packages whose names differ only in case can be used side by side.", "quantifier": "every manifest, registry contents, lockfile, order of responses, spelling of names", "why_tests_cant": "which package is found in a folder depends on everything placed before, in every order of responses", "anchors": ["crates/node-maintainer/src/graph.rs Node::new (57-103), Node.children (39-53)", "crates/node-maintainer/src/resolver.rs satisfy_dependency (278-301)", "crates/nassun/src/resolver.rs PackageResolution::satisfies (65-88)"]}
{"id": "C79", "title": "descriptions of packages are read as they are written", "statement": "Reading a registry's description of a package gives, for every version it lists, the name, version, requirements of each kind, bundled packages, archive address and checksums as written there, and the tags as written, whatever other fields there are and in whatever order; an entry that cannot be read does not hide the other versions. A package.json is read in the same way, with its commands and scripts.", "quantifier": "every JSON document", "why_tests_cant": "the documents are written by others: any fields, order, repetition and shape of values may occur", "anchors": ["crates/oro-common/src/packument.rs CorgiPackument (15-21), CorgiVersionMetadata (69-83), deserialize_deprecation_info (190-208)", "crates/oro-common/src/manifest.rs CorgiManifest (11-28), Manifest (30-198), BundledDependencies (272-277)", "crates/oro-common/src/build_manifest.rs RawBuildManifest (12-26)", "crates/oro-client/src/api/packument.rs packument (11-66)", "crates/nassun/src/fetch/dir.rs manifest, name_from_path (29-70)"]}
{"id": "C80", "title": "after an install the project works", "statement": "After an install, wherever one gets from the project by following requirements (of the project, of the packages it finds, of the packages they find, and so on), Node's lookup on disk finds for each requirement a folder, that folder holds exactly the files of one package, and that package is what the requirement asks for: it satisfies it, or it is the registry's answer to it.", "quantifier": "every manifest, registry, lockfile, order of responses, order in which packages are done, contents of packages, both layouts, chain of requirements of any length", "why_tests_cant": "it joins resolver, linker and Node's lookup, for every schedule and every chain of requirements", "anchors": ["crates/node-maintainer/src/resolver.rs run_resolver (52-276)", "crates/node-maintainer/src/linkers/hoisted.rs prune (37-240), extract (242-357)", "crates/node-maintainer/src/linkers/isolated.rs prune (38-336), extract (338-477)", "crates/node-maintainer/src/maintainer.rs NodeMaintainer::prune, extract (540-556)"]}
{"id": "C81", "title": "applying twice is applying once", "statement": "Running apply a second time, with the same package.json and the lockfile and node_modules the first run left, asks the registry for nothing, succeeds, unpacks nothing, runs no scripts, leaves node_modules as it is (commands included) and writes the same lockfile, whatever the registry says by then.", "quantifier": "every manifest, registry contents at both times, order of responses and of packages in both runs, contents of packages, both layouts", "why_tests_cant": "it joins resolver, lockfile and linkers over all pairs of runs, with any schedule and any change of the registry between them", "anchors": ["src/apply_args.rs (14-18: documented as idempotent), execute (127-168)", "crates/node-maintainer/src/resolver.rs run_resolver (52-276), satisfy_from_lockfile (303-344)", "crates/node-maintainer/src/graph.rs to_lockfile (193-218)", "crates/node-maintainer/src/linkers/hoisted.rs prune (37-240), link_bins (359-455)", "crates/node-maintainer/src/linkers/isolated.rs prune (38-336), link_deps (506-559)"]}
{"id": "C82", "title": "reapply installs from scratch", "statement": "Running reapply gives a node_modules with exactly the packages of the resolved tree and their commands, whatever was in node_modules before; if it fails before anything could be installed, because package.json cannot be read or the project cannot be resolved, node_modules is left as it was.", "quantifier": "every prior contents of node_modules, manifest, lockfile, registry contents, order of responses and of packages, both layouts", "why_tests_cant": "the prior node_modules and the runs of the resolver are unbounded", "anchors": ["src/commands/reapply.rs execute (19-62)", "src/apply_args.rs execute (127-168)", "crates/node-maintainer/src/maintainer.rs resolve_manifest (333-388)"]}
{"id": "C83", "title": "oro view shows what the registry says and an install would use", "statement": "`oro view` prints, for the version the specifier resolves to, its name, version, license, number of dependencies and releases, description, homepage, deprecation, keywords, where its archive is and how it is checked, maintainers and publisher, as the registry's answer says; the commands it lists are those an install makes; every dependency is listed with its requirement (the first 25 by name, and the number of the others); and it succeeds whenever the package can be installed.", "quantifier": "every registry answer, version, terminal width, package.json of that version", "why_tests_cant": "answers have any number of versions, fields, dependencies and commands", "anchors": ["src/commands/view.rs execute (29-247)", "crates/oro-common/src/packument.rs Packument, VersionMetadata, Dist", "crates/nassun/src/fetch/npm.rs metadata, packument", "crates/oro-common/src/build_manifest.rs normalize (67-156)"]}
{"id": "C84", "title": "oro ping asks the configured registry", "statement": "`oro ping` asks the registry that is configured, at its ping address and with its credentials, and succeeds exactly if that registry answers without an error status; with --json it prints the registry, the time and the answer.", "quantifier": "every registry address, credentials, answer", "why_tests_cant": "addresses and answers are unbounded", "anchors": ["src/commands/ping.rs execute (29-58)", "crates/oro-client/src/api/ping.rs ping (3-14)"]}
{"id": "C85", "title": "every run has a debug log of its own", "statement": "The debug log of a run is a file of its own: the run's lines are not mixed with those of another run, and no existing log is changed.", "quantifier": "all contents of the working directory and of the folder of logs, all pairs of runs", "why_tests_cant": "depends on the times at which runs start and on what is in two folders", "anchors": ["src/lib.rs log_file_name (761-771), load (696-700), setup_logging (354-360)"]}
{"id": "C86", "title": "commands one after the other", "statement": "Whatever commands were run in a project before (apply, reapply, add, remove, with whatever options, successful or not) and however package.json and the lockfile were edited in between: a command that is to install and whose requirements can be resolved succeeds; afterwards node_modules has exactly the packages of the resolved tree and describes them, the lockfile describes them too, package.json is as the command wants it and the project works; a command that cannot resolve leaves package.json and the lockfile alone; and running `oro apply` right afterwards changes nothing.", "quantifier": "every history of commands, options, edits, registry answers (changing over time) and orders of events", "why_tests_cant": "histories are unbounded, and each depends on what all earlier commands left behind", "anchors": ["src/apply_args.rs execute (127-168)", "src/commands/{apply,reapply,add,remove}.rs", "crates/node-maintainer/src/maintainer.rs", "crates/node-maintainer/src/linkers/hoisted.rs prune, extract"]}
{"id": "C87", "title": "failed lifecycle scripts are not forgotten", "statement": "When a lifecycle script of a package fails, the command fails and leaves package.json and the lockfile alone; and running the command again does not succeed without the script having been run again successfully.", "quantifier": "every project, tree, script behaviour and event", "why_tests_cant": "depends on what a failed run leaves behind in every project", "anchors": ["crates/node-maintainer/src/linkers/mod.rs rebuild (103-123), run_scripts (147-243)", "crates/node-maintainer/src/linkers/hoisted.rs extract (242-357)", "src/apply_args.rs execute (127-168)"]}
{"id": "C88", "title": "from the registry's documents to the lockfile", "statement": "For a project whose requirements (and those of what they lead to) ask for registry packages: every package in the resolved tree is one that the registry's JSON documents list, in a version they choose for something required under its name, with the address, checksum and requirements given there; every requirement of the project and of every package is met by a package of the document it asks for; if all that is sought can be had, nothing fails; every lockfile entry has the version, address, checksum and requirements of its document; and resolving again from that lockfile, when the registry is gone or says something else, asks for nothing and gives the same packages and the same lockfile.", "quantifier": "every package.json, every set of registry documents (JSON), every order of responses, every moment of the resolve, and every later registry", "why_tests_cant": "joins the readers of documents, specifiers, versions and lockfiles with the resolver, for all documents, trees and schedules", "anchors": ["crates/node-maintainer/src/resolver.rs run_resolver (52-276)", "crates/node-maintainer/src/graph.rs Node::new (57-103), to_lockfile (193-218)", "crates/nassun/src/fetch/npm.rs corgi_metadata (66-77), corgi_packument (91-119)", "crates/nassun/src/resolver.rs get_resolution (142-277)", "crates/oro-common/src/packument.rs", "crates/oro-package-spec/src/parsers", "crates/node-maintainer/src/lockfile.rs (145-220)"]}
{"id": "C89", "title": "permission bits of installed files", "statement": "After a package has been installed, every file of it has the permission bits that the archive gives it, its owner can read and write it, and every file that its manifest names as a command can be executed by everybody; whether it comes from the registry or from the cache, in every link mode; and installing one package does not change the permission bits of another's files.", "quantifier": "every archive, manifest, link mode, file system behaviour (what bits new, cloned and copied files get) and history of the machine", "why_tests_cant": "depends on all archives, on what the cache holds from other packages, and on the history of hard links", "anchors": ["crates/nassun/src/tarball.rs extract_to_dir (205-390), extract_from_cache (432-480), set_bin_mode (483-502)", "crates/nassun/src/package.rs extract_from_cache (263-308)"]}
{"id": "C90", "title": "from the registry's documents to a node_modules folder that works", "statement": "For a project whose requirements (and those of what they lead to) ask for registry packages: after a first install, wherever one gets from the project by following requirements, Node's lookup finds a folder that holds exactly the archive of a version that the registry's documents list for the required package, and that the requirement allows (or that the documents choose for it); and so on from that folder, with the requirements the documents give for that version.", "quantifier": "every package.json, every set of registry documents and archives, every order of responses, both linkers, every order of extraction", "why_tests_cant": "joins document readers, resolver, placement, linkers and Node's module lookup for all documents, trees and schedules", "anchors": ["crates/node-maintainer/src/resolver.rs run_resolver (52-276), place_child (346-440)", "crates/node-maintainer/src/linkers/hoisted.rs (37-357)", "crates/node-maintainer/src/linkers/isolated.rs (338-559)", "crates/nassun/src/fetch/npm.rs (66-119)", "crates/nassun/src/resolver.rs get_resolution (142-277)", "crates/oro-common/src/packument.rs"]}
{"id": "C91", "title": "packages extracted at the same time do not disturb each other", "statement": "When several packages are extracted at the same time through one cache, each extraction that succeeds leaves exactly the files of its package in its folder (apart from folders of packages nested in it), no file outside the packages' folders is touched or gets other contents, hard links included, and whatever happens - interruptions and damage to the cache included - the cache's index goes on listing the true files of the archives it names. Every extraction ends, and an extraction fails only if it would fail alone.", "quantifier": "every number of packages, every archive, every link mode, every interleaving of the steps of the extractions, every history of earlier extractions (interrupted ones too) and of damage to the cache", "why_tests_cant": "ranges over all interleavings of file operations of unboundedly many extractions and over all histories of the cache", "anchors": ["crates/nassun/src/package.rs extract_to_dir_inner (206-260), extract_from_cache (263-308), clean_from_cache (323-346)", "crates/nassun/src/tarball.rs extract_to_dir (205-390), TarballIndex::extract_from_cache (432-480)", "crates/node-maintainer/src/linkers/hoisted.rs extract (266-350)", "crates/node-maintainer/src/linkers/isolated.rs extract (360-470)"]}
{"id": "C92", "title": "a first install, down to file operations and the cache", "statement": "A first hoisted install of a resolved tree into an empty node_modules, with packages extracted at the same time through one cache: if every package's tarball can be fetched or is in the cache undamaged, is a sound archive without bundled dependencies, and has a readable manifest, then no package fails and none is passed over because its folder seems to be there already; the install ends; and then node_modules holds exactly the files of the tarballs in the folders the tree asks for, the packages to be rebuilt are exactly those with scripts or commands, and the project's requirements find what they ask for.", "quantifier": "every tree, every archive, every state of the cache, every link mode, every interleaving of file operations in which packages begin in the tree's order", "why_tests_cant": "ranges over all trees, archives and cache states, and all interleavings of the file operations of unboundedly many extractions", "anchors": ["crates/node-maintainer/src/linkers/hoisted.rs extract (242-338)", "crates/nassun/src/package.rs extract_to_dir_inner (206-260)", "crates/nassun/src/tarball.rs extract_to_dir (205-390)", "crates/node-maintainer/src/resolver.rs run_resolver (52-276)"]}
{"id": "C93", "title": "a first install by the isolated linker, down to file operations and the cache", "statement": "A first install of a resolved tree by the isolated linker into an empty node_modules, with packages extracted and their dependencies linked at the same time through one cache: if every package's tarball can be fetched or is in the cache undamaged, is a sound archive without bundled dependencies, and has a readable manifest, then no package fails and none is passed over because its folder seems to be there already; no symbolic link is ever where a package is extracted to or on the way there; the install ends; and then node_modules holds exactly the files of the tarballs in the store and one link per dependency, leading to that dependency's folder, the packages to be rebuilt are exactly those with scripts or commands, and the project's requirements find what they ask for.", "quantifier": "every tree, every archive, every state of the cache, every link mode, every interleaving of file operations (packages may begin in any order), every order of responses while resolving", "why_tests_cant": "ranges over all trees, archives and cache states, and all interleavings of the file operations of unboundedly many extractions and links", "anchors": ["crates/node-maintainer/src/linkers/isolated.rs extract (338-451), link_deps (506-559)", "crates/node-maintainer/src/linkers/mod.rs mkdirp (483-514)", "crates/nassun/src/package.rs extract_to_dir_inner (206-260)", "crates/nassun/src/tarball.rs extract_to_dir (205-390)"]}
{"id": "C94", "title": "installed files can be changed without changing the cache or another project's files", "statement": "Changing an installed file in place changes no other file and nothing in the cache: for every file, if the install makes no hard links (--prefer-copy, reflinks, no hard links on the file system, or no cache); and in every mode for the files of packages with install scripts, since their scripts may change them.", "quantifier": "every tree, every archive, every state of the disk and of the cache, both linkers, every link mode, every interleaving of the file operations of concurrently extracted packages, every moment of the install, every file and every new content", "why_tests_cant": "sharing between a file and the cache shows only when both are compared after an edit, and can arise at any of the interleaved operations of unboundedly many extractions (cache first filled by one package and read by another)", "anchors": ["crates/node-maintainer/src/linkers/hoisted.rs extract (257-269)", "crates/node-maintainer/src/linkers/isolated.rs extract (355-367)", "crates/nassun/src/package.rs extract_from_cache (263-308)", "crates/nassun/src/tarball.rs extract_to_dir (205-390), extract_from_cache (432-480)"]}
{"id": "C95", "title": "an install into a node_modules in which packages are already completes it, and outcomes mean what they say", "statement": "Whatever is on the disk when an install starts: a package that counts as extracted has all its files, with the right contents; only places of packages whose extraction was begun in this install change, and their folders were not there; a package is passed over only if its folder was there, and fails only if its extraction failed, its manifest could not be read, or a folder or link could not be made; links are made only where nothing is. In particular, if a tree was installed and the changes are pruned away, then a further install completes node_modules to exactly what the tree asks for, down to the file operations.", "quantifier": "every tree, every archive, every state of the disk (for the outcomes) or every disk that pruning leaves (for completion), every state of the cache, every interleaving of the file operations of concurrently extracted packages, every moment of the install", "why_tests_cant": "whether a package is passed over depends on what is on the disk at the moment it is looked at, which depends on the schedule; the starting states are unboundedly many", "anchors": ["crates/node-maintainer/src/linkers/hoisted.rs extract (242-357), prune (37-240)", "crates/node-maintainer/src/linkers/isolated.rs extract (338-477), link_deps (506-559)", "crates/nassun/src/tarball.rs extract_to_dir (205-390), extract_from_cache (432-480)"]}
{"id": "C96", "title": "the life of a project, install after install, down to the file operations", "statement": "A project is kept by orogene: a first install over whatever is in node_modules (leftovers of other tools, half-extracted packages of an interrupted install) when there is no meta file, then any number of further installs of other trees, with anything else happening on the machine in between that leaves node_modules alone. Then each install, if its packages can be had (those that are already there need not be), fails for no package at any moment and ends; after it node_modules holds exactly what the tree asks for; installing the same tree again extracts nothing and changes nothing; and nothing outside node_modules is ever changed.", "quantifier": "every history of installs and other events, every tree, every archive, every state of the disk and the cache, every link mode, every interleaving of the file operations of each install", "why_tests_cant": "ranges over unboundedly long histories of installs, each with all interleavings of its file operations, from arbitrary leftovers", "anchors": ["crates/node-maintainer/src/linkers/hoisted.rs prune (37-240), extract (242-357)", "crates/node-maintainer/src/maintainer.rs prune (540), extract (549)", "src/apply_args.rs execute (127-168)", "crates/nassun/src/tarball.rs extract_to_dir (205-390), extract_from_cache (432-480)"]}
{"id": "C97", "title": "what was installed once can be installed again without the network", "statement": "With a cache, at every moment of an install, every package that counts as extracted and has an integrity is in the cache, complete and undamaged, and nothing that was in the cache complete and undamaged is lost. So once a first install is over, any project made of the same packages (the same one with node_modules removed, or another one) is installed without the network, in whatever link mode, as long as the cache keeps what it has: nothing fails, it ends, and what is below node_modules is what its tree asks for.", "quantifier": "every tree, every archive, every state of the cache, both linkers, every link mode, every interleaving of the file operations of both installs", "why_tests_cant": "whether a package's files and index entry are all in the cache depends on the interleaving of unboundedly many extractions that fill and read the same cache", "anchors": ["crates/nassun/src/package.rs extract_to_dir_inner (206-260), extract_from_cache (263-308)", "crates/nassun/src/tarball.rs extract_to_dir (205-390)", "crates/node-maintainer/src/linkers/hoisted.rs extract (242-357)", "crates/node-maintainer/src/linkers/isolated.rs extract (338-477)"]}
{"id": "C98", "title": "installs that are interrupted are repaired by installing again", "statement": "If an install is interrupted at any moment (while pruning, while packages are extracted, while the meta file is written), any number of times, applying the same tree again goes well: it can begin, nothing fails, it comes to an end, then what is below node_modules is exactly what the tree asks for, and the machine's files and cache are in order. An interrupted install takes nothing away that the next one needs. `reapply` does the same from whatever state node_modules is in, and when `reapply` itself is interrupted, installing again repairs that too.", "quantifier": "every tree, every archive, every state of the cache and of node_modules that installs leave, every moment of interruption, any number of interruptions, every interleaving of file operations", "why_tests_cant": "an interruption can come between any two of unboundedly many interleaved file operations, and again in the attempt after it", "anchors": ["crates/node-maintainer/src/linkers/hoisted.rs prune (37-240), extract (242-357)", "src/apply_args.rs execute (127-168)", "src/commands/reapply.rs execute (18-60)", "crates/nassun/src/package.rs extract_to_dir_inner (206-260)", "crates/nassun/src/tarball.rs extract_to_dir (205-390)"]}
{"id": "C99", "title": "commands can be executed", "statement": "Every link that linking makes for a command of an installed package leads, once it is there and at every later moment of linking, to a file that everybody can read and execute, whatever permission bits the package's archive, the cache or the umask gave it. Linking changes nothing else: no contents, no cache, no names of files outside the folders for commands, and no permission bits but those of the commands' own files.", "quantifier": "every tree, every set of declared commands, every permission bits before, every number of packages at a time, every interleaving of their steps", "why_tests_cant": "the steps of unboundedly many packages interleave, and which other files share the bits depends on the history of the cache", "anchors": ["crates/node-maintainer/src/linkers/mod.rs link_bin (444-480)", "crates/node-maintainer/src/linkers/hoisted.rs link_bins (359-455)"]}
{"id": "C100", "title": "the entries of a package are those of an archive with the expected integrity", "statement": "Reading the entries of a package as a stream gives the caller the entries of what the registry sent; if the stream comes to its end without an error, then what was sent has the integrity that the package was resolved with, and otherwise the caller gets an error. Entries obtained with the unchecked variant never fail for their integrity; whether there is a check changes nothing else.", "quantifier": "every archive library, every archive, every way the bytes may be cut up or break off, every expected integrity", "why_tests_cant": "ranges over all byte streams and their chunkings, and over what the archive library reads when", "anchors": ["crates/nassun/src/package.rs: Package::entries, entries_unchecked, entries_checked, tarball", "crates/nassun/src/tarball.rs: Tarball::entries, poll_read", "crates/nassun/src/entries.rs: Entries, Entry"]}
{"id": "C101", "title": "a lockfile whose writing was interrupted does not lead the next install astray", "statement": "Whatever is left of package-lock.kdl when a command dies while writing it: each entry that the next command reads from it is an entry of the lockfile that was being written, at the same location, or an entry that says nothing; before the project's own entry has been started there is no lockfile at all. The next install then ends with the tree, and writes the lockfile, that an install with the whole lockfile would have given.", "quantifier": "every lockfile, every point at which its writing may stop, every project, registry and order of answers", "why_tests_cant": "crash points inside one write, times all histories of the resolver that follows", "anchors": ["crates/node-maintainer/src/maintainer.rs: write_lockfile, get_lockfile", "crates/node-maintainer/src/lockfile.rs: to_kdl, from_kdl, to_package", "crates/node-maintainer/src/resolver.rs: run_resolver, satisfy_from_lockfile"]}
{"id": "C102", "title": "an interrupted login neither mangles nor loses saved credentials and options", "statement": "Whatever is left of the configuration file when oro login, oro logout or the first-time setup dies while writing it: later commands that can read it see every option exactly as the whole file sets it, or none of them; in particular they use for a registry exactly the credentials that were saved, or none, never a part of a token or another registry's. Logging in again then works as if nothing had happened. Options and credentials that were saved before are not lost.", "quantifier": "every configuration file, every point at which its writing may stop, every login, every later command and its other sources of options", "why_tests_cant": "crash points inside one write, times all files and all later commands", "anchors": ["src/commands/login.rs: LoginCmd::execute", "src/commands/logout.rs: LogoutCmd::execute", "src/lib.rs: Orogene::first_time_setup", "crates/oro-config/src/kdl_source.rs: KdlSource::collect", "crates/oro-npm-account/src/config.rs: set_credentials_by_uri, set_scoped_registry"]}
{"id": "C103", "title": "a package.json whose writing was interrupted is never taken for another document", "statement": "When oro add or oro remove dies while writing package.json, what is left of the file is either no JSON, so that every later command says so, or the whole new document, of which at most the last line's end is missing. The old document is not lost.", "quantifier": "every document, every style it is written in, every change of it, every point at which its writing may stop", "why_tests_cant": "crash points inside one write, times all documents and styles", "anchors": ["src/commands/add.rs: AddCmd::execute", "src/commands/remove.rs: RemoveCmd::execute", "crates/oro-pretty-json/src/lib.rs: from_str, to_string_pretty"]}
