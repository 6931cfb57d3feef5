# Design: a Lean 4 model of orogene

All Lean sources live in `lean/Verif/`. For each area there are up to four files:

* `Model/X.lean`  – the model: one Lean definition per Rust function (or step of one), each citing file:lines in /repo and
  saying what is simplified;
* `Spec/X.lean`   – a small specification vocabulary, independent of the model's helper functions;
* `Proofs/X.lean` – helper lemmas;
* `Props/X.lean`  – the property theorems (`Cnn_…`), with examples showing that their hypotheses are met.

`properties.jsonl` lists the properties in English, `MANIFEST.json` says which theorems settle which property (generated by
`tools/manifest.py` from `tools/claims.py`), `seeded/LOG.jsonl` records the wrong programs the theorems were tested against.

Naming: `Cnn_…` without suffix is proved in full generality; `Cnn_…_partial` proves part of the property, under the
restrictions in its statement; `Cnn_…_fails` / `Cnn_…_panics` prove that the *code as modelled* violates the property (for
every input of a described kind, or by exhibiting a concrete one). A property with a `_fails` theorem has status `partial`
in the manifest unless the failure lies outside its statement.

## Trusted base

* Lean 4.33.0's kernel. The project adds no axioms. Each theorem depends on at most `propext`, `Classical.choice` and
  `Quot.sound`. `native_decide` and `bv_decide` are not used; `decide +kernel` is used only on closed, concrete terms
  (examples and counterexamples), and is evaluated by the kernel.
* The fidelity of the model to the Rust text, which was read and not executed.
* The behaviour of libraries and of the operating system, as far as it is modelled or left as a parameter:

| outside code | how it appears |
|---|---|
| node_semver | parameters: parsing, printing, order (total, where assumed), range membership |
| ssri | digests are a parameter; the rule "first algorithm, any of its digests" is modelled |
| cacache | content store and index are modelled (verification on read, commit by rename) |
| tar, flate2 | a parameter: bytes ↦ list of entries + whether the end was reached |
| url | parameters (parse, print, scheme, host, path); `Url::join` modelled for registry addresses |
| nom | the combinators used are modelled (soft error, failure, crash) |
| kdl, serde_json text syntax | documents are trees; serde_json's *pretty printer* is modelled character by character, its reader is assumed to read canonical texts correctly (such a reader is constructed) |
| config, clap | layering and the treatment of switches are modelled |
| reqwest, TLS, redirects | not modelled; a request has an address and headers |
| async executor | every interleaving allowed by the code is a run of a step relation |
| file system | maps from paths to files/folders/links, inode numbers where hard links matter; Unix paths |
| child processes (scripts, git) | parameters: success or failure; what `git clone/checkout/show-ref` answer |

Global simplifications: package names of the resolver are case-folded names (`UniCase` in the code; `Model/Spelled` puts the
spelling back, C78), elsewhere they are compared as plain strings; hash maps are
association lists in an arbitrary order, or an explicit order parameter where order can be observed; permission bits are modelled for
extracted files (C89) and not for folders or links; time stamps, progress bars, tracing and telemetry are left out.

## What is modelled

| crate / file | functions | Lean |
|---|---|---|
| node-maintainer/graph.rs | Node::new, Graph::{resolve_dep, find_by_name, node_parent, node_depth, node_path, node_at_path, to_lockfile, node_lockfile_node, validate} | Model/Graph, AtPath, Lockfile |
| node-maintainer/resolver.rs | run_resolver, satisfy_dependency, satisfy_from_lockfile, place_child, load_actual (as step machine) | Model/Resolver |
| node-maintainer/lockfile.rs, into_kdl.rs | from_kdl, to_kdl, from_npm, to_package, manifests of entries | Model/Lockfile, LockPackage |
| node-maintainer/maintainer.rs | get_lockfile, the phases, write_lockfile | Model/Lockfile, Cli |
| node-maintainer/linkers/mod.rs | rebuild, run_scripts, run_dep_script, link_bin, mkdirp | Model/Scripts, Hoisted, Mkdirp |
| node-maintainer/linkers/hoisted.rs | prune, extract, link_bins | Model/Hoisted (one package after the other), Model/Extract (extraction concurrently, file by file), Model/LinkBins (commands concurrently, step by step) |
| node-maintainer/linkers/isolated.rs | prune, extract, link_bins, link_deps, package_dir(_name) | Model/Isolated (one package after the other), Model/ExtractIso (concurrently, file by file and link by link) |
| oro-package-spec | all parsers, Display, target, requested, gitinfo | Model/PackageSpec, LockPackage, Fetch |
| nassun/resolver.rs | satisfies, get_resolution, max_satisfying | Model/Nassun |
| nassun/tarball.rs, package.rs | Tarball (poll_read), into_temp, extraction from network and cache, fallback, mkdirp | Model/Tarball |
| nassun/fetch/* | pick_registry, memoised packuments, DirFetcher, GitFetcher, dispatch, conversions of dir metadata | Model/Npm, Fetch, Metadata |
| nassun/client.rs | registries, resolve_spec, pick_fetcher | Model/Npm, Fetch |
| oro-common | BuildManifest::normalize, packument/manifest conversions, deserialisation | Model/Bins, Metadata, Documents |
| oro-client auth, oro-npm-account, oro-config (auth) | credential matching, saving, clearing | Model/Auth |
| oro-config | layered arguments, configuration sources | Model/Config |
| oro-pretty-json | detection and formatting | Model/PrettyJson, Json |
| oro-script | PATH of scripts | Model/ScriptPath |
| oro-shim-bin | header parsing, variable rewriting | Model/Shim |
| src/ (CLI) | apply, add, remove, reapply phases; root finding; log naming and cleaning; option parsing; view; ping | Model/Cli, Startup, Whole, Add, View, Ping, LogFile |

Not modelled: wasm bindings (oro/nassun `wasm.rs`), the polling loop's timing in `oro login`,
telemetry and Sentry, progress and terminal output, the fixed text of Windows shims, reading JSON values from text (serde_json),
permission bits of folders, retries and HTTP caching, OTP handling, Windows path syntax.

## Plan and result per property

| id | what is modelled | how it is proved | result |
|----|------------------|------------------|--------|
| C01 | graph + resolver as a step machine; answers in any order | exact criterion per placement; invariant for orderly schedules; counterexample schedule | partial, code violates |
| C02–C07 | same | invariants over all schedules | proved |
| C08 | same | single run for lockfile-only resolves; invariant that fixes the tree for projects without version conflicts; two schedules, two trees | partial, violates |
| C09 | same | induction on schedule | proved |
| C10 | satisfy_from_lockfile | induction on the path | proved |
| C11 | locked check | case analysis on runs | proved |
| C12 | lockfile ↔ KDL trees | every lockfile read from a file differs in the root entry | partial, violates for every tree |
| C13, C14 | same | round trip; sorted output is permutation invariant | proved |
| C15 | to_lockfile on reachable graphs | injectivity of paths in trees | proved |
| C16 | two resolver runs, the lockfile text in between | simulation: the second run follows the lockfile (`Settled`, `Follows`); concrete schedule for the violation | partial (sound and unambiguous trees, flat trees); violated otherwise |
| C17 | get_lockfile | decision theorem | proved |
| C18 | from_npm | round trip on paths | partial (workspaces) |
| C19, C20 | get_resolution, satisfies over abstract versions | decision theorems | proved |
| C21 | parser + printer on character lists | round trip outside listed classes; counterexamples | partial, violates |
| C22 | target | induction | proved |
| C23, C24 | poll_read, into_temp over chunk lists | induction on chunks | proved |
| C25–C27 | extraction with inodes and cache | invariants over extraction steps and machine histories | partial, violates |
| C28 | normalize | list lemmas | proved |
| C29–C31, C56 | run_scripts as a transition system | invariants; progress on acyclic dependencies; deadlock | C30 violated on cycles, rest proved |
| C32–C35 | hoisted linker on a file tree | exact effect of prune/extract/link; histories; interruptions | partial, violates |
| C36, C48 | CLI phases; edits of JSON objects | trace theorems; map laws | C48 proved, C36 partial |
| C37 | node_at_path | induction on paths | partial, violates |
| C38, C39 | URL matching; KDL configuration | decision theorems; frame conditions | partial, violates |
| C40 | option layering | decision theorems | partial, violates |
| C41 | serde_json's printer, detection | induction on values and texts | partial, violates outside the pretty layout |
| C42 | mkdirp with shared cache | interleaving invariant; exact single-call condition | partial, violates |
| C43 | registry choice, memo | interleaving invariant | partial (addresses without final slash) |
| C44 | metadata conversions | algebraic laws | proved |
| C45 | PATH | list lemmas | partial, violates |
| C46, C47 | isolated linker | exact content after apply; histories | partial, violates |
| C49 | shim header | induction on texts | partial, violates |
| C50, C51, C57 | startup helpers | list lemmas, decision theorems | C57 proved, C50/C51 partial, violate |
| C52, C58, C59 | resolver | invariants | proved |
| C53 | get_resolution + satisfies | decision | partial, violates |
| C54, C55 | integrity of shasum; archive paths | for all environments | violated |
| C60 | to_package over the modelled parser | composition of print and parse | partial, violates |
| C61 | parsers against a separate grammar | case analysis over the alternatives | proved |
| C62, C63 | fetchers and dispatch | decision theorems | partial, violates |
| C64 | KDL documents as configuration | mutual induction on nodes | partial, violates |
| C65 | composition of C39, C64, C40, C51, C38 | decision, for all orders | partial, violates |
| C66 | login dialogue over lists of answers | equivalence with a declarative dialogue; composition with C65 | partial, violates |
| C67 | logout | frame conditions; composition with C65 | partial, violates |
| C68 | which requests a command makes for a package, and the header of each | composition of C43, C38 and C65 | partial, violates |
| C69 | saved scopes, from the file through the options to the registry that is asked | permutation-invariant fold over the options | partial, violates |
| C70 | first-time setup on the configuration document; the two switches through the layers of options | frame conditions on the document; composition with C40 over two runs | partial, violates |
| C71 | the proxy fields of the builder and the way of a request | case analysis; induction over the calls | partial, violates |
| C72 | the whole of normalize, with the walk of a folder | case analysis over the forms, inductions over lists | partial, violates |
| C73 | rebuild as a sequence of runs of the script phase | induction over the phases; invariant of each run | proved |
| C74 | requirement made by `oro add` from the text typed, over the models of the parser (C23-C26), of fetching (C62) and of the editing of package.json (C48) | printing and parsing lemmas of C23-C26, C19, C62 | partial (git: addresses of the printable forms only; directories: shown to crash) |
| C75 | resolver run with a lockfile as an input, no assumption where it comes from; `oro remove` as a second run with fewer requirements | invariant of the run (every node and link is the lockfile's), counting for termination | proved |
| C76 | resolver with any lockfile that has packages at the top level only, or none | invariant of the run (every package is the one chosen for its name, at the top level), potential function for termination | proved |
| C77 | resolver as a step machine | potential function (events are bounded by packages and requirements); rank function for registries without cycles; invariant of a registry for which the tree is a growing chain | partial, violates |
| C78 | resolver over spelled names, with the parser of specifiers and the satisfaction test | invariant of the run (every package is the one its folder's name stands for); two runs that break it | partial, violates |
| C79 | serde's reading of descriptions and package.json from JSON values | the reader meets a relational specification of what a document says, in both directions; documents that break it | partial, violates |
| C80 | resolver, linkers and Node's lookup together | the set of folders reached from the project is shown closed under requirements (C04, C05, then C01+C33 or C46); a schedule and disk that break it for the hoisted layout | isolated: proved; hoisted: partial, violates |
| C81 | two runs of apply: resolver, lockfile, linkers | the second tree is shown alike the first, node for node (C16, C75), so the linkers' second-run theorems (C33_again, apply_again) apply; a command and a schedule that break it | partial, violates |
| C82 | src/commands/reapply.rs over the whole-command model (Model/Whole.lean: resolver, lockfile, linkers as the steps of apply_args.rs) | node_modules is reset, so C33_fresh, C46_fresh and C35 apply to the steps; the failing cases computed | partial, violates |
| C83 | src/commands/view.rs 29-247 as a function from the registry's answer (JSON) to the printed text and success; readers of the full description; grid layout, dates and sizes are parameters (Model/View.lean) | reading related to a specification and to the reader installs use (C79); parts of the text located; commands compared with C72 | partial, violates |
| C84 | src/commands/ping.rs, api/ping.rs: the request, its credentials and the outcome (Model/Ping.lean) | computation, with the lemmas on joined addresses and credentials of C43 and C68 | partial, violates |
| C85 | src/lib.rs 761-771, 696-700: the name of the log and appending to it (Model/LogFile.lean) | names determine time and number; pigeonhole for the loop | partial, violates |
| C86 | the commands of C36 and C48 with the resolver, lockfile and hoisted linker of Model/Whole.lean, run one after the other (Spec/Life.lean) | invariant over histories (C33, C76, C81); for projects without version conflicts the hypothesis on changes is proved to hold | partial: changes that pruning overlooks (C33_fails) are excluded; full for projects without conflicts and scopes (C86_agreed) |
| C87 | as C82, with scripts that fail | computation of the failing run, then C33_again | partial, violates |
| C88 | the resolver over the readers of specifiers, registry documents, versions and lockfile entries (Model/Stack.lean); node_semver, Url, ssri and git stay open | closure of requests over the reachable states, then C04/C05, C15, C19, C60, C62, C79 and C16 with their hypotheses discharged from what the documents say | partial: entries that say to be another version are excluded (C88_mislabelled_fails) |
| C89 | tarball.rs 230-365, 432-502 and package.rs 263-308 with permission bits (archive, cache's files, clones and copies, chmod, umask as parameters; Model/Tarball.lean) | induction over the entries (each file's bits are set last by its own entry), the index records them (C27's invariant), then the commands | partial, violates |
| C90 | Model/Stack.lean with the linkers of Model/Hoisted.lean and Model/Isolated.lean; Spec/StackWorks.lean speaks of documents, archives and Node's lookup | C88's links as C80's tree: what is visited are the nodes' folders; `Installable` discharged from the documents; the commands (Model/Command.lean) through C82 and C81 with a registry narrowed to what is sought (Proofs/Restrict.lean) | partial: hoisted linker only for orderly answers or flat trees (C80_fails otherwise) |
| C91 | Model/TarRun.lean: the extraction of package.rs and tarball.rs as a transition system, one file operation at a time, any number of extractions over one disk | invariant over all reachable states (what each extraction still knows is kept by every step of the others); C91_alone ties a solitary run to the functions of Model/Tarball.lean; a well-founded measure for C91_ends | partial, violates |
| C92 | Model/InstallRun.lean: the hoisted linker's `extract` as a transition system over the file operations of Model/TarRun.lean, existence check and manifest reading included | the invariants of C91 plus one for folders (new files are in folders; folders are only made for packages that have begun), from which the disk's view is `Installed` (the specification of C33); then C80 | proved |
| C93 | Model/StoreRun.lean: the isolated linker's `extract` and `link_deps` as a transition system over the file operations of Model/TarRun.lean: existence checks, extraction, reading of manifests, `mkdirp` with the shared cache of folders, making links | the invariants of C91 and C92 carried over to folders made from outside an extraction, plus an invariant for links and for the shared cache of folders; from it the disk's view is `Exact` (the specification of C46); then C80 | proved |
| C94 | Spec/Private.lean: reading and editing a file in place, contents of the cache; over the runs of Model/TarRun.lean, Model/InstallRun.lean and Model/StoreRun.lean | invariant: a file that was not there before shares its inode with no other name and no cache entry (modes without hard links); for packages with scripts an invariant on the extraction's point of progress: links are replaced by copies once the manifest was seen | partial: false for package.json of packages with scripts (`C26_fails`) and, by design, for other packages with hard links (`Hoisted.C94_hardlink_fails`) |
| C95 | Spec/Further.lean: proper file systems, what a further installation starts from; over the runs of Model/InstallRun.lean and Model/StoreRun.lean from any start | the accesses of an install from any start are those of an install of the packages that are absent (Proofs/Further.lean), so C91's and C92's invariants apply to those; outcomes by an invariant relating each phase to the moment it was entered; pruning leaves what is needed (C41's `Prev`) | partial: the completion theorem is for the hoisted linker (outcomes and links for both), and without the premise that packages are there completely or not at all it is false (`Hoisted.C95_half_fails`) |
| C96 | Model/FileLife.lean: pruning on the file system, then node_modules, then the run of Model/InstallRun.lean; Spec/FileLife.lean: histories of a project (`Kept`) | induction over the history: every install leaves a proper, sane, honest machine (Proofs/Proper.lean) with exactly the tree's files (C95), from which pruning (C41) leaves what the next one starts from | partial: hoisted linker; changes of the tree must be ones pruning notices (`Noticed`; the others are C33_fails); scripts are among the other events, which must leave packages alone (linking commands does: C96_linking) |
| C97 | Spec/Offline.lean: being in the cache, a cache that keeps what it has, no network; over the runs of Model/TarRun.lean, InstallRun.lean, StoreRun.lean, FileLife.lean | an invariant beside C91's: an extraction from the network records its files, one from the cache leaves the entry, no step of an extraction that goes well takes anything out; then C92/C93 for the second install | proved for packages with an integrity; the others are fetched again every time (`Tar.C97_unverified_fails`) |
| C98 | Model/FileLife.lean (also what `reapply` clears), Spec/FileLife.lean: what becomes of a disk when an install is tried and interrupted (`Tried`, `TriedAnew`), an install that goes well (`GoesWell`) | an invariant of interrupted attempts: the machine is in order and what pruning would leave alone is as it was, since every package still missing lies where pruning removes; then C95/C96 for the last attempt | partial: hoisted linker, changes that pruning notices, the same tree (another one: `Hoisted.C34_fails`), commands and scripts not included; an interrupted `reapply` is not repaired by `apply` (`Hoisted.C98_cleared_fails`) |
| C99 | Model/BinModes.lean, Model/IsoBinModes.lean: the steps of linking (Model/LinkBins.lean, C35) with what `link_bin` does to permission bits; Spec/BinModes.lean | induction over the steps: a link comes into being in the step that sets the bits, and no step sets other bits; with C35's invariant for what is a command's file; for every project with a history (C96): Props/BinLife.lean; from the tarballs of a first install to the commands, with no assumption that linking ends or succeeds: Props/FirstLinks.lean | partial: not Windows; isolated linker: first installs; with hard links the bits of other packages' files and of the cache's change too (`Hoisted.C99_shared_fails`) |
| C100 | Model/Entries.lean: the stream of entries over `poll_read` (Model/Tarball.lean); async_tar, GzipDecoder and BufReader are a parameter (`Unpacker`) that asks for bytes when it wants to | invariants of the checked stream, and a simulation by the unchecked one | partial: for unpackers that read to the end (`Thorough`); for one that stops at the end mark it is false (`Tar.C100_unread_fails`) |
| C101 | the documents that the beginning of a written lockfile can be read as (Spec/Torn.lean), read by `Lockfile.fromKdl` and given to the resolver | the packages read are a front part of those of the whole file, plus at most one entry that says nothing; so the project still agrees with the lockfile, and C08/C76 apply | partial: projects without version conflicts and an unchanged registry; false when the registry has moved on (`ExL.C101_moved_on_fails`); for `.orogene-meta.kdl` with the hoisted linker: `Hoisted.C101_record_partial`, for the changes that C33 covers |
| C102 | the documents that the beginning of a configuration file can be read as (Spec/Torn.lean), read by `Config.collect` and used by the model of C65/C66 | the options block is closed last, so it is there entirely or not at all; the rest is C65 and C66, whose hypotheses what is left of a file meets | partial: files and addresses as in C65; saved credentials and answers can be lost (`Auth.C102_lost_fails`, `Setup.C102_refusal_fails`) |
| C103 | prefixes of the text that Model/PrettyJson.lean writes; Spec/TornJson.lean: counting brackets outside of strings, readers that reject what is left open | induction over the printed value: no part of it closes more brackets than it opened, so the first bracket of an object is open until the last character | partial: the old document is lost (`PJson.C103_lost_fails`) |

## Defects of the code established by theorems

Each line names the theorem. All are about the pinned commit.

*Resolver and lockfile.* `C01_fails`: a package can load another copy than the one linked. `C08_fails`: the tree depends on
response order. `C78_twice_fails`, `C78_case_fails`, `C78_alias_fails`: requirements that get a package of
another name. `C77_fails`: two versions that require each other are nested in each other forever. `C12_fails`, `C12_npm_fails`: `--locked` rejects every lockfile read from disk. `C16_fails`: resolving from
the lockfile just written can drop a package. `C18_workspace_fails`: workspace folders are imported as the root.
`C60_unpinned_fails`: git dependencies are never pinned and are resolved anew. `C60_workspace_fails`: a linked workspace is
read as a GitHub repository. `C60_ssh_fails`: an ssh address is written in a form that is not read back.

*Specifiers.* `C21_fails`, `C21_panics`: specifiers that do not print back, or crash the parser. `C53_fails`,
`C53_dir_fails`: resolved packages that do not satisfy their own specifier. `C61_empty_fails`, `C61_address_fails`: empty
requirements and tarball addresses are rejected.

*Fetching.* `C79_one_version_fails`: one odd version hides all versions of a package. `C79_both_fails`,
`C79_license_fails`, `C79_script_fails`: package.json files of published packages that cannot be read. `C62_dir_fails`, `C62_git_fails`, `C62_git_alone_fails`, `C62_install_fails`: directory requirements, hosted
repositories without commit and every installation from a directory or repository crash. `C63_v_tags_fails`,
`C63_archive_fails`, `C63_archive_address_fails`, `C63_bitbucket_fails`. `C43_address_fails`: the last part of a registry address is lost. `C44_corgi`:
deprecation notes are lost.

*Extraction and cache.* `C25_fails`: `..` escapes. `C25_shared_fails`: hard links let one package overwrite another.
`C26_fails`: package.json of a package with scripts shared with the cache. `Hoisted.C94_hardlink_fails`: by default editing an installed file edits the cache. `Hoisted.C95_half_fails`: a half-extracted package is taken for the package by the next install. `Hoisted.C98_cleared_fails`: after a `reapply` interrupted while it clears node_modules, `apply` believes the old meta file and never puts the removed files back. `C27_broken_index_fails`, `C27_fallback_fails`,
`C27_twice_fails`. `C28_target_may_escape`. `C54_fails`: packages with only a shasum can never be installed. `C55_fails`: long
paths are cut off. `C23_read_after_error`. `C89_shared_fails`: chmod on hard-linked files changes the cache and other
installed packages. `C89_spelling_fails`: a command written as `l//b` is executable after the first installation, not after one from the
cache. `C89_private_fails`: files can become readable by their owner only. `C89_uncached_fails`: without a cache, commands are not made
executable. `C89_missing_fails`: with a cache, a package that names a command it does not contain cannot be installed.
`Hoisted.C99_shared_fails`: with hard links, linking a command makes the cache's file, and other packages' files with the same contents,
executable. `Iso.Ex.C99_isolated_wrong_fails`: the isolated linker makes a file of the wrong package executable.
`Tar.C100_unread_fails`: the stream of a package's entries can end well although the tarball has the wrong integrity, which is then never
checked; `Tar.C100_early_fails`, `Tar.C100_once_fails`.
`ExL.C101_moved_on_fails`: a package-lock.kdl cut short by a crash is accepted as a lockfile, and what it pinned further down is lost.
`Auth.C102_lost_fails`: an `oro login` that is interrupted while writing loses the credentials of all other registries.
`Setup.C102_refusal_fails`: it also loses a refusal of telemetry, so that runs in CI send reports.
`PJson.C103_lost_fails`: an `oro add` or `oro remove` that is interrupted while writing leaves no package.json at all.
`C91_race_fails`: throwing a damaged package out of the cache removes contents that another extraction has just written, which then
fails. `C91_evict_fails`: it also breaks undamaged cached packages that share a file. `C91_bundled_fails`: a package with a file directly in its own `node_modules` can
fail to install if a dependency nested there is extracted first. `C91_same_folder_fails`: two simultaneous
installations into one folder with hard links empty the package's files and the cache's.

*Scripts.* `C30_fails`, `C30_cycle`: cyclic dependencies block for ever. `C45_above_fails`, `C45_unset_fails`,
`C45_colon_fails`.

*Linkers.* `C82_fails`: `oro reapply` with a package.json that cannot be read, or offline, loses node_modules. `C81_hoisted_fails`: applying a second time removes every command. `C81_resolve_fails`: applying a second time can give another tree. `C80_fails`: after a hoisted install a package finds another version than it requires. `C32_scoped_fails`, `C33_fails`, `C34_fails`, `C34_scripts_fails`, `C34_isolated_fails` (a half-unpacked package is kept for good), `C35_fails`, `C35_race_fails`, `C35_same_race_fails` and `C35_order_fails` (linking commands fails when two packages are handled at once, or when packages are added), `C35_isolated_names_fails`,
`C35_isolated_wrong_fails`, `C35_isolated_again_fails`; `C46_update_fails`,
`C46_scope_fails`, `C46_phantom_fails`, `C46_collision_fails`, `C47_scope_folder_fails`, `C47_right_removed_fails`,
`C47_stale_fails`, `C47_scoped_fails`; `C42_fails`, `C42_race_fails`; `C37_fails`.

*Command line.* `C36_fails`, `C48_order_fails`, `C48_panics`, `C40_env_fails`, `C40_reversed_fails`, `C40_number_fails`,
`C50_folder_fails`, `C51_nested_panics`, `C51_nested_fails`, `C41_zero_fails`, `C41_cr_fails`, `C41_compact_fails`.

*Credentials and shims.* `C38_port_fails`, `C38_prefix_fails`, `C39_fails`, `C39_bare_fails`; `C49_equals_fails`,
`C49_brace_fails`, `C49_path_fails`. `C65_address_fails`, `C65_entries_fails`, `C65_two_fails`, `C65_short_fails`: saved or
documented forms of credentials that are not used, or that make every command fail. `C64_beside_fails`, `C64_block_fails`,
`C64_second_fails`: parts of the configuration file that are silently dropped. `C66_retry_fails`, `C66_www_fails`,
`C66_file_fails`: logins that crash or cannot succeed. `C67_revoke_fails`: logging out never revokes a saved token.
`C67_leak_fails`: logging out sends a saved legacy secret in an address. `C68_slash_fails`, `C68_tarball_fails`,
`C68_scoped_fails`: requests to private registries without the configured credentials. `C69_spelling_fails`: a scope's old
registry is used still after a login. `C70_optin_fails`: reports are sent though nobody agreed. `C70_panic_fails`,
`C70_two_fails`: files for which the first-time setup crashes or never ends. `C71_flag_fails`, `C71_password_fails`: a proxy
that cannot be switched off, and passwords that never work. `C72_directories_fails`, `C72_dot_fails`, `C72_absolute_fails`: `directories.bin` is
looked for in the working directory of the process. `C74_dir_fails`: `oro add ./dir` always crashes.
`C83_scoped_fails`, `C83_directories_fails`: `oro view` lists other commands than an install makes. `C83_license_fails`,
`C83_times_fails`: it shows nothing for packages that can be installed. `C83_narrow_fails`: one long requirement hides all
dependencies. `C84_slash_fails`: `oro ping` asks another registry. `C84_plain_fails`: with --json it fails on a registry that is
up. `C85_shared_fails`: two runs share a log. `C87_fails`: after a script failed, the same command run again succeeds without running it.
`C88_mislabelled_fails`: a version whose entry in the registry's document says to be another version is installed under the other one's number and with
the other one's requirements.
`C83_sizes_fails`: a strange size of one version hides all versions from `oro view`. `C63_leftover_fails`: a broken archive makes the fallback fail.

## Testing the theorems

In a scratch copy, one definition of the model is edited at a time the way a bug would change the program, and everything is
rebuilt. If everything still builds although an English claim is now false, the theorem was too weak and is tightened. Every
attempt is recorded in `seeded/LOG.jsonl`, with the theorems that failed (the first ones in build order) and those tightened.
