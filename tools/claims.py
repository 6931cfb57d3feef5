c("C01","partial",["C01_step_iff","C01_orderly_partial","C01_offline_partial","C01_rounds_partial","C01_fails"],"The property is false of the code: C01_fails exhibits a schedule after which a package loads another copy than the one it was linked to. Proved: exact criterion per placement, and the full property for schedules that answer a package's requirements before starting on packages inside it (incl. fully locked resolves and round-based ones).")
c("C02","proved",["C02_never_overwrites"])
c("C03","proved",["C03_tree"])
c("C04","proved",["C04_all_linked","C04_declares"])
c("C05","proved",["C05_links_sound"])
c("C06","proved",["C06_counts"])
c("C07","proved",["C07_shared_fetch"])
c("C08","partial",["C08_offline_partial","C08_agreed_partial","C08_fails"],"False of the code (C08_fails: two response orders, two trees). Proved for resolves answered entirely by the lockfile, and for projects without version conflicts (C76), where the lockfile that is written is the same too.")
c("C09","proved",["C09_failed_fetch","C09_why"],"C09_why is the converse: the only other causes of failure are unreadable requirements and lockfile entries.")
c("C10","proved",["C10_lock_nearest"])
c("C52","proved",["C52_known_packages"])
c("C11","proved",["C11_locked","C11_unlocked"])
c("C12","partial",["C12_fails","C12_npm_fails","C12_partial"],"False of the code, for every tree: locked mode rejects every lockfile read from a file (C12_fails for KDL, C12_npm_fails for npm). Proved: version and package entries agree; only the root entry differs.")
c("C13","proved",["C13_roundtrip","C13_any_lockfile","C13_integrity_lost","C13_version_range","C13_properties"],"For lockfiles of resolved trees; for arbitrary lockfiles an integrity without source is lost. KDL text syntax and Display/FromStr of Version and Integrity are trusted.")
c("C14","proved",["C14_canonical","C14_faithful"])
c("C15","proved",["C15_one_entry_each"],"Names are assumed to be of the form name or @scope/name.")
c("C16","partial",["C16_partial","C16_flat_partial","C16_fails"],"Proved for trees in which links lead to what is loaded (C05) and no other package around would do, in particular for flat trees: the second resolve makes no request, cannot fail, and gives the same packages at the same places and the same lockfile text. Otherwise the code breaks it: a re-resolve may drop a nested package.")
c("C17","proved",["C17_precedence","C17_readable"])
c("C18","partial",["C18_import_partial","C18_workspace_fails"],"Proved for lockfiles whose entries are all in node_modules folders; workspace folders are imported as the root (C18_workspace_fails).")
c("C19","proved",["C19_selection","C19_sound","C19_unversioned"],"node_semver's order and range membership are parameters. The pre-release rule for * and the fallback 0.0.0 are stated explicitly.")
c("C20","proved",["C20_satisfies"])
c("C53","partial",["C53_resolved_satisfies_partial","C53_fails","C53_dir_fails"],"False for tags, bare names, git and (with another working directory) relative directories; proved for versions and ranges.")
c("C21","partial",["C21_roundtrip_partial","C21_fails","C21_panics"],"False of the code for some specifiers (C21_fails) and the parser can crash (C21_panics); the round trip is proved for all parsed specifiers outside the listed exceptions.")
c("C22","proved",["C22_target"])

c("C23","proved",["C23_checked","C23_reads","C23_mismatch","C23_integrity"],"ssri's streaming hasher is modelled as hashing the concatenation. C23_read_after_error records a limit: a reader that ignores the error and reads on sees a normal end of data.")
c("C24","proved",["C24_buffering","C24_memory"])
c("C25","partial",["C25_network_partial","C25_cached_partial","C25_fails","C25_shared_fails"],"False of the code: paths with .. escape (C25_fails), and extracting a cached package with two names for one file overwrites files of other packages through hard links (C25_shared_fails). Proved for paths that do not leave the folder.")
c("C26","partial",["C26_network_partial","C26_cached","C26_fails"],"False for package.json itself on extraction from the network; proved for all other files, and for all files when served from the cache.")
c("C27","partial",["C27_index_honest","C27_extract_partial","C27_broken_index_fails","C27_fallback_fails","C27_twice_fails"],"Proved: success means the right files, after any history of extractions and cache damage, into an empty folder. False: a damaged index entry, or a cache that fails after a subfolder was created, makes extraction fail instead of using the network; extracting twice into one folder with hard links empties the files. Collision freedom of the integrity and plain distinct paths are assumed.")
c("C28","proved",["C28_names"],"Unix path semantics. C28_target_may_escape records that targets may contain '..'.")
c("C54","partial",["C54_fails"],"False of the code for every such package; nothing positive remains to be proved.")
c("C55","partial",["C55_fails","C55_partial"],"False for archives with long-name records; proved for archives whose paths fit the header.")

c("C29","proved",["Scripts.C29_after_dependencies"],"All schedules, graphs and concurrency limits. The handling of a package is one task; that a child process has ended when wait() returns is the operating system's.")
c("C30","partial",["Scripts.C30_once","Scripts.C30_bounded","Scripts.C30_ends_partial","Scripts.C30_cycle","Scripts.C30_fails"],"False of the code: pending packages that depend on each other block the phase for ever (C30_cycle, C30_fails). Proved: exactly once, bounded, and always ending when no two pending packages depend on each other.")
c("C31","proved",["Scripts.C31_success","Scripts.C31_failure","Scripts.C31_optional","Scripts.C31_unreadable"],"Scripts.C31_unreadable records that an unreadable package.json of an optional package does fail the phase.")
c("C56","proved",["Scripts.C56_limit"])
c("C37","partial",["C37_inverse","C37_inside_partial","C37_fails"],"Proved for package folders and for regular paths inside them; a path below an unknown scoped folder, or with node_modules twice in a row, is attributed to the wrong package (C37_fails).")
c("C32","partial",["Hoisted.C32_top_partial","Hoisted.C32_unknown","Hoisted.C32_isolated","Hoisted.C32_scoped_fails"],"Proved for unscoped top-level entries on any disk and for a node_modules without meta file or left by the isolated linker. False for scoped packages (C32_scoped_fails), and for packages nested in an unchanged one (kept as a whole, C32_top_partial).")
c("C33","partial",["Hoisted.C33_fresh","Hoisted.C33_switch","Hoisted.C33_partial","Hoisted.C33_history_partial","Hoisted.C33_again","Hoisted.C33_concurrent","Hoisted.C33_concurrent_partial","Hoisted.C33_concurrent_ends","Hoisted.C33_fails"],"Packages are extracted concurrently and file by file, in any interleaving: the outcome is that of one after the other (C33_concurrent), without failures or deadlock, and within a bound. Proved from an empty or unknown node_modules and over any history of applies whose changes pruning notices; false for upgrades of scoped or nested packages (C33_fails). Fetching is assumed to deliver the package contents (for extractions through one cache at the same time this is C91); packages have no bundled node_modules.")
c("C34","partial",["Hoisted.C34_same_partial","Hoisted.C34_fresh_partial","Hoisted.C34_concurrent","Hoisted.C34_fails","Hoisted.C34_scripts_fails","Whole.C34_wiped","Whole.C34_wiped_isolated","Iso.C34_isolated_fresh_partial","Iso.C34_isolated_fails"],"Hoisted layout: proved for repeating the same apply after an interruption at any point (C34_concurrent: the points reached while several packages are extracted are among these); false when another tree is applied next (C34_fails) and for lifecycle scripts and commands (C34_scripts_fails). Isolated layout: proved for an interrupted first install; false for an interrupted change, since pruning leaves the old meta file (C34_isolated_fails).")
c("C35","partial",["Hoisted.C35_fresh_partial","Hoisted.C35_new_partial","Hoisted.C35_concurrent_partial","Hoisted.C35_new_concurrent_partial","Hoisted.C35_alone","Hoisted.C35_ends","Hoisted.C35_alone_ends","Hoisted.C35_fails","Hoisted.C35_race_fails","Hoisted.C35_same_race_fails","Hoisted.C35_order_fails","Iso.C35_isolated_partial","Iso.C35_isolated_only","Iso.C35_isolated_names_fails","Iso.C35_isolated_wrong_fails","Iso.C35_isolated_again_fails"],"Hoisted: proved for packages extracted in this run, for any number of packages linked at a time and any interleaving of their steps, if linking comes to its end (C35_concurrent_partial); with one at a time it does (C35_alone, C35_alone_ends); it never goes on for ever, with a bound on its steps (C35_ends); with two at a time it can fail when both make the folder for commands (C35_race_fails) or link the same command (C35_same_race_fails); and even one at a time when nested packages are added to what was installed before (C35_order_fails); false for packages that were already installed: a second apply removes node_modules/.bin (C35_fails). Isolated: proved after a first install for commands called like their package; false for all others (C35_isolated_names_fails), which may open another package's file (C35_isolated_wrong_fails); and once node_modules/.bin exists, adding a dependency with a command makes apply fail (C35_isolated_again_fails).")

c("C36","partial",["Cli.C36_order","Cli.C36_success","Cli.C36_lockfile_only_partial","Cli.C36_fails","Cli.C36_no_apply","Cli.C36_no_lockfile","Cli.C36_no_scripts","Cli.C36_scripts","Cli.C36_apply_forced"],"Proved for every option set and every behaviour of the steps, except that with lockfile-only an unreadable meta file in node_modules is deleted (C36_fails).")
c("C48","proved",["Cli.C48_add_one","Cli.C48_add","Cli.C48_remove","Cli.C48_add_order","Cli.C48_remove_order","Cli.C48_add_defined","Cli.C48_order_fails","Cli.C48_panics"],"As maps: the relative order of the other dependencies is not kept (C48_order_fails), and a section that is not an object crashes the command (C48_panics).")
c("C41","partial",["PJson.C41_written","PJson.C41_value","PJson.C41_edit","PJson.C41_style","PJson.C41_reader_exists","PJson.C41_zero_fails","PJson.C41_cr_fails","PJson.C41_compact_fails"],"Value: for every value and every document. Style: byte for byte for every document in the pretty layout with at least one space or tab per level and \\n or \\r\\n; false for documents without indentation, with \\r line ends, or in one line. serde_json's printer is modelled, its reader assumed to read canonical texts correctly (such a reader exists: C41_reader_exists).")
c("C38","partial",["Auth.C38_only_there","Auth.C38_source","Auth.C38_sent","Auth.C38_folder","Auth.C38_port_fails","Auth.C38_prefix_fails"],"Proved with 'registry' meaning host and path prefix, for all URLs, credential options and requests. False in the stricter sense: port and scheme are ignored (C38_port_fails), and a registry path without a final slash covers sibling paths (C38_prefix_fails). Redirects are followed inside reqwest and not modelled.")
c("C39","partial",["Auth.C39_fails","Auth.C39_readback","Auth.C39_saved","Auth.C39_used","Auth.C39_set_others","Auth.C39_clear","Auth.C39_scoped","Auth.C39_bare_fails","Auth.C39_last_property"],"Reading back through get_credentials_by_uri never returns what was saved (C39_fails: token and legacy-auth are swapped); the credentials saved are the ones a client built from the configuration uses (C39_used). Frame conditions proved for all documents; an auth node without a block makes saving a no-op (C39_bare_fails).")
c("C40","partial",["Config.C40_layers","Config.C40_tables","Config.C40_switch","Config.C40_reversed_partial","Config.C40_values","Config.C40_env_fails","Config.C40_reversed_fails","Config.C40_number_fails","Config.C40_switch_words","Config.C40_equals","Config.C40_table_entries","Config.C40_spelled"],"Proved for layers, switches and valued options, for every declaration, configuration, order and command line. False: '--name' on the command line is overridden by configuration for switches declared 'no-name' (C40_reversed_fails), environment variables cannot set options with a dash (C40_env_fails), numbers and boolean words configured for valued options are dropped (C40_number_fails). clap and config are modelled, not proved.")
c("C42","partial",["Mkdirp.C42_threads","Mkdirp.C42_threads_error","Mkdirp.C42_exact","Mkdirp.C42_effect","Mkdirp.C42_alone","Mkdirp.C42_fresh","Mkdirp.C42_fails","Mkdirp.C42_race_fails"],"Honest cache and existence after success are proved for all interleavings of any number of calls; exact success condition for single calls; all calls below a new folder succeed. False: a folder that exists while only its parent is cached makes the call fail (C42_fails), and so do two simultaneous calls for one new folder (C42_race_fails). Nothing is removed meanwhile.")
c("C43","partial",["Npm.C43_registry","Npm.C43_parsed","Npm.C43_lookup","Npm.C43_memo","Npm.C43_address","Npm.C43_address_fails"],"Proved for all registry settings, parsed specifiers and interleavings of lookups, for registries whose address ends with a slash. A registry address without final slash loses its last part (C43_address_fails).")
c("C44","proved",["Meta.C44_full","Meta.C44_reduce","Meta.C44_corgi","Meta.C44_corgi_iff","Meta.C44_folder","Meta.C44_folder_version","Meta.C44_folder_value"],"Conversions between the types, for all packuments; deprecation notes are lost on the way from reduced to full (C44_corgi), which the property does not mention. Serialisation is not modelled.")
c("C45","partial",["ScriptPath.C45_folders","ScriptPath.C45_environment","ScriptPath.C45_inherited","ScriptPath.C45_inherited_all","ScriptPath.C45_above_fails","ScriptPath.C45_unset_fails","ScriptPath.C45_colon_fails"],"Proved for projects given by their canonical absolute path, on Unix. False when the project's path is relative or leads through a link (folders above the project are added, C45_above_fails), when no PATH variable is set, and when a folder name contains a colon.")
c("C49","partial",["Shim.C49_env","Shim.C49_direct","Shim.C49_references","Shim.C49_interpolated","Shim.C49_plain","Shim.C49_set","Shim.C49_envset","Shim.C49_quotes","Shim.C49_equals_fails","Shim.C49_brace_fails","Shim.C49_path_fails"],"Proved for every header with well-formed assignments (with or without env and -S) and every value made of plain text and references. False: a value that contains '=' is taken for the program (C49_equals_fails), a closing brace after a reference without braces is dropped (C49_brace_fails), and the path after a variable becomes part of its name (C49_path_fails). The fixed text of the shim files is not modelled.")
c("C50","partial",["Startup.C50_clean","Startup.C50_safe","Startup.C50_missing","Startup.C50_folder_fails"],"Proved for every folder of logs in which nothing but files and links is found. False otherwise: a folder that sorts first makes cleaning, and thereby every command, fail (C50_folder_fails). The choice of the new log's name is not modelled.")
c("C51","partial",["Startup.C51_pair","Startup.C51_pair_error","Startup.C51_nested","Startup.C51_nested_error","Startup.C51_nested_panics","Startup.C51_nested_fails"],"Exact results for all strings. False that malformed input never crashes: the exact condition for a crash is proved (C51_nested_panics), an address that contains '=' is one case (C51_nested_fails).")
c("C57","proved",["Startup.C57_root"],"For every current folder and every file tree.")
c("C46","partial",["Iso.C46_distinct","Iso.C46_fresh","Iso.C46_update_partial","Iso.C46_again","Iso.C46_history_partial","Iso.C46_link_resolves","Iso.C46_sees","Iso.C46_project_sees",
 "Iso.C46_concurrent","Iso.C46_concurrent_partial","Iso.C46_concurrent_count","Iso.C46_concurrent_ends","Iso.C46_update_fails","Iso.C46_scope_fails","Iso.C46_phantom_fails","Iso.C46_collision_fails"],
 "Exact content of node_modules after installing, for all trees, orders and hashes that tell packages apart; after a change, and any history of changes, for the changes in Compatible (the folders for commands aside, see C35); the same when several packages are extracted and linked at a time, file by file and link by link, in any order (C46_concurrent*). The code breaks the property: another version at the same place is not unpacked, a second dependency of a scope makes apply fail, packages see the project's dependencies, and 32 bits of hash can collide.")
c("C47","partial",["Iso.C47_packages_kept","Iso.C47_others_removed","Iso.C47_links","Iso.C47_scope_folder_fails","Iso.C47_right_removed_fails","Iso.C47_stale_fails","Iso.C47_scoped_fails"],
 "The store part holds (except empty scope folders); the link part is false: right links are removed and made again, stale and scoped ones are never looked at.")

c("C58","proved",["C58_bounded"],"For every reachable state of the resolver.")
c("C59","proved",["C59_shallow_first"],"For every step that ends a batch; names are assumed totally ordered.")
c("C61","proved",["C61_forms","C61_unambiguous","C61_empty_fails","C61_address_fails"],"For the grammar in Spec/Forms.lean; version, range and URL syntax are those of the external parsers. Two forms that npm accepts are not in orogene's grammar and are shown to be rejected: empty texts and tarball addresses.")
c("C60","partial",["C60_reads_back_partial","C60_less","C60_entries","C60_requirement","C60_git_not_pinned","C60_unpinned_fails","C60_workspace_fails","C60_ssh_fails"],
 "Holds for registry packages, directories and git repositories with a commit; the code breaks it for git repositories without a commit (resolving never pins one), for linked workspaces and for ssh addresses.")
c("C62","partial",["Fetch.C62_registry","Fetch.C62_tarball","Fetch.C62_direct_partial","Fetch.C62_git_partial","Fetch.C62_dir_fails","Fetch.C62_git_fails","Fetch.C62_git_alone_fails","Fetch.C62_install_fails"],
 "Holds for registry packages and for resolving a directory given on its own, or a repository given by its address. The code breaks it: requirements on directories crash, requirements on hosted repositories without a commit crash, and no directory or repository can be installed.")
c("C63","partial",["Fetch.C63_clone_partial","Fetch.C63_fallback_partial","Fetch.C63_leftover_fails","Fetch.C63_address_panics","Fetch.C63_archive_address_fails","Fetch.C63_addresses","Fetch.C63_v_tags_fails","Fetch.C63_archive_fails","Fetch.C63_bitbucket_fails"],
 "Holds for specifiers with an address and for hosted repositories whose archive can not be had, if tags are written as versions are printed. The code breaks it: tags with a v, hosted repositories with a commit whose archive is delivered, the address of archives at GitHub, Bitbucket addresses.")
c("C64","partial",["Config.C64_value","Config.C64_options","Config.C64_beside_fails","Config.C64_block_fails","Config.C64_second_fails"],
 "Holds for nodes that are a flag, a value, a list, properties or a block. The code breaks it: of a node that mixes these, and of a second options block, the rest is silently dropped.")
c("C65","partial",["Auth.C65_login_then_use","Auth.C65_address_fails","Auth.C65_entries_fails","Auth.C65_two_fails","Auth.C65_short_fails"],
 "Holds for files with at most one auth section that holds nothing but registries' nodes, and addresses without closing braces and equal signs. The code breaks it otherwise, and for addresses that are no full URLs (the form in the help text).")
c("C66","partial",["Login.C66_credentials","Login.C66_command","Login.C66_scope","Login.C66_requests","Login.C66_waits","Login.C66_retry_fails","Login.C66_www_fails","Login.C66_file_fails","Login.C66_reasons"],
 "Holds for files and addresses as in C65. The code breaks it: it crashes on a retry time that is no number and on headers that are not plain text, and it cannot log in where there is no configuration file yet. The server's answers are any; reading JSON, numbers and lower case are parameters; retries of the HTTP client are not modelled.")
c("C67","partial",["Login.C67_cleared","Login.C67_later","Login.C67_revoke_fails","Login.C67_leak_fails"],
 "The local part holds (for later commands: for files and addresses as in C65). The code breaks the rest: the registry is never asked to delete a token that was saved by a login, and a saved legacy token (name and password) is put into an address.")
c("C68","partial",["Npm.C68_packument","Npm.C68_after_login","Npm.C68_tarball","Npm.C68_slash_fails","Npm.C68_tarball_fails","Npm.C68_scoped_fails"],
 "Holds for descriptions from registries whose address ends with a slash, and for archives at registry.npmjs.org. The code breaks it otherwise: other archives are always asked for without credentials, and so are descriptions when the registry's address does not end with a slash.")
c("C69","partial",["Npm.C69_used","Npm.C69_spelling_fails"],
 "Holds for files with at most one section of scoped registries, with one text for each scope, and one spelling of the scope. The code breaks it: with the other spelling (with or without @) in the file, the old registry may be used still.")
c("C70","partial",["Setup.C70_recorded","Setup.C70_asked_once","Setup.C70_off","Setup.C70_optin_fails","Setup.C70_panic_fails","Setup.C70_two_fails"],
 "Recording and asking once hold for files with one options block and at most one node for each of the two options. The code breaks the rest: telemetry is on unless it is switched off, so runs in CI and in scripts send reports without consent, and so does every run after the first one in a script; files with several options blocks crash the setup or make it ask for ever.")
c("C71","partial",["Proxy.C71_via","Proxy.C71_none","Proxy.C71_last_off","Proxy.C71_last_url","Proxy.C71_default","Proxy.C71_flag_fails","Proxy.C71_password_fails"],
 "Which proxy is used for which host is proved for all options and for all sequences of calls of the library's builder. The code breaks two parts: --no-proxy does not switch a configured address off, and passwords are sent in their %xx form.")

c("C72","partial",["Bins.C72_commands_partial","Bins.C72_directories_fails","Bins.C72_dot_fails","Bins.C72_absolute_fails"],
 "Proved for the three forms of the field bin. The code breaks it for directories.bin: the folder is looked for in the working directory of the process instead of the package, so installing fails or other files become commands; written ./folder it never gives any.")
c("C73","proved",["Scripts.C73_events","Scripts.C73_ignored","Scripts.C73_order","Scripts.C73_once","Scripts.C73_failure","Iso.C73_isolated_pending"],
 "All phases of rebuild, over the transition system of C29-C31 for each. Which packages are pending is part of C33 and C46; scripts that stay unrun after an interrupted apply are C34_scripts_fails.")
c("C74","partial",["Add.C74_registry","Add.C74_range","Add.C74_exact","Add.C74_git_partial","Add.C74_dir_fails","Add.C74_package_json"],
 "Proved for registry packages and for the entries of package.json. For repositories it is proved for the addresses that are printed the way they are read (GitPrints, see C21); for directories the code breaks it: the entry written has no working meaning, and the command crashes on it before package.json is written.")
c("C75","proved",["C75_follows","C75_ends","C75_removed","C75_remove"],
 "C75_remove joins it with the lockfile written by the last install, for trees that are sound and unambiguous (the class of C16_partial).")
c("C76","proved",["C76_flat","C76_keeps","C76_ends","C08_agreed_partial"],"The class of projects is Agreed (Spec/Agree.lean).")
c("C77","partial",["C77_bounded_partial","C77_acyclic_partial","C75_ends","C76_ends","C77_fails"],"False of the code: two versions of a package that require each other are nested forever. Proved: a run takes at most one event per package of the tree and three per requirement, so it ends if the tree stops growing; when no package can require itself through others, the length of a run is bounded by the depth and width of the requirements; with the bounds given by C75 and C76 for their projects.")
c("C78","partial",["C78_named_partial","Spelled.C78_spelled_partial","Spelled.C78_registry_name","Spelled.C78_twice_fails","Spelled.C78_case_fails","Spelled.C78_alias_fails"],"False of the code: names are compared without case and a version is all that is compared, so a requirement may get the package of a name that differs in case, or the package another requirer has given that name as an alias. Proved when each name stands for one package throughout, for all schedules and lockfiles.")
c("C79","partial",["Docs.C79_manifest","Docs.C79_version","Docs.C79_packument","Docs.C79_other_fields","Docs.C79_order","Docs.C79_lookup","Docs.C79_build","Docs.C79_name","Docs.C79_one_version_fails","Docs.C79_both_fails","Docs.C79_license_fails","Docs.C79_script_fails","Docs.C79_inner_fails","Docs.C79_name_exact"],"The reading itself is exact: what is read is what is written, for all documents, and other fields and the order do not matter. The code breaks the rest: one version with an odd entry makes all of them unreadable, both spellings of bundledDependencies make a package.json unreadable, a package without name is not installed from a folder because of a license of the old form, and one script that is no text makes the commands unreadable.")
c("C80","partial",["Works.C80_isolated","Works.C80_isolated_commands","Works.C80_store","Works.C80_isolated_later_partial","Works.C80_agreed","Works.C80_installed","Works.C80_first_partial","Works.C80_later_partial","Whole.C80_command_isolated","Whole.C80_command_hoisted","Works.C80_fails"],"Isolated layout: holds after every first install, for every order of responses and of packages, with or without commands, and after later installs the linker gets right (C46). Hoisted layout: false of the code (C80_fails: answers arriving late put a package where others find it instead of theirs); it holds for projects without version conflicts whatever the order of responses, and for any project when responses come in order. Assumed: plain package names, packages without node_modules of their own, and for the store digits that tell packages apart (they need not: C46_collision_fails).")
c("C81","partial",["Again.C81_resolve_partial","Again.C81_hoisted_partial","Again.C81_isolated_partial","Again.C81_hoisted_agreed_partial","Again.C81_isolated_agreed","Whole.C81_command_hoisted_partial","Whole.C81_command_isolated_partial","Again.C81_hoisted_fails","Again.C81_resolve_fails"],"Holds for the isolated layout, commands included, and for the hoisted one except commands, when the first tree is sound and unambiguous (the class of C16_partial; always so without version conflicts, C81_*_agreed) and the packages are registry packages whose entries read back (C22, C60). The code breaks the rest: the second run of the hoisted linker removes every command (C81_hoisted_fails), and from an unsound tree the second resolve gives another tree (C81_resolve_fails). Proved after a first install into a fresh node_modules, and for the commands themselves (C81_command_*: the second `oro apply` always succeeds).")
c("C82","partial",["Whole.C82_independent","Whole.C82_hoisted","Whole.C82_isolated","Whole.C82_fails"],"The first half is proved for both layouts: what was there before makes no difference, and when the project resolves the command succeeds with exactly the resolved packages, commands, lockfile and meta file (assuming plain names and scripts that change nothing in node_modules). The second half is false of the code: node_modules is removed before package.json is read (C82_fails).")
c("C83","partial",["View.C83_reads","View.C83_as_installed","View.C83_succeeds","View.C83_header","View.C83_about","View.C83_dist","View.C83_deprecated","View.C83_published","View.C83_commands_partial","View.C83_dependencies_partial","View.C83_sizes_fails","View.C83_scoped_fails","View.C83_directories_fails","View.C83_narrow_fails","View.C83_license_fails","View.C83_times_fails"],"What is printed is what the answer says, and the answer is read as an install reads it (C83_as_installed). The rest is false of the code: a scoped package with one unnamed command is shown with a command an install does not make, directories.bin is not shown, the command fails on narrow terminals with many dependencies, and a license object or an answer without publishing times makes it fail although the package can be installed.")
c("C84","partial",["Ping.C84_asks_partial","Ping.C84_answers","Ping.C84_json_partial","Ping.C84_slash_fails","Ping.C84_plain_fails"],"Proved for registries whose address ends in a slash; without it the last segment is lost (C84_slash_fails). With --json an answer that is not JSON makes the command fail (C84_plain_fails).")
c("C85","partial",["LogFile.C85_free","LogFile.C85_apart_partial","LogFile.C85_own_partial","LogFile.C85_shared_fails"],"False of the code: the name is checked against the working directory, not against the folder of logs, so two runs started in the same moment share one file. Proved for runs whose time stamps differ.")
c("C86","partial",["Life.C86_command_partial","Life.C86_life_partial","Life.C86_goes_on","Life.C86_works_partial","Life.C86_again_partial","Life.C86_agreed"],"Hoisted linker. C86_agreed is total: for projects that never have version conflicts or scoped packages, every install command of every history succeeds, the project works and has exactly the packages it needs. In general (C86_command_partial, C86_life_partial) the changes between installed trees must be ones that pruning notices: those it overlooks are C33_fails. Isolated histories are C46_history_partial at the level of the linker.")
c("C87","partial",["Whole.C87_reported","Whole.C87_fails","Whole.C87_reapply_partial"],"The failure is reported and the lockfile left alone (C87_reported), and reapply runs everything again (C87_reapply_partial); but apply, run again, succeeds without the scripts (C87_fails). Hoisted linker.")
c("C88","partial",["Stack.C88_packages_partial","Stack.C88_links_partial","Stack.C88_succeeds_partial","Stack.C88_lockfile_partial","Stack.C88_again_partial","Stack.C88_again_flat_partial","Stack.C88_ends_partial","Stack.C88_total_partial","Stack.C88_mislabelled_fails"],"The resolver on top of the real readers of documents, specifiers, versions and lockfile entries; node_semver, Url and ssri are the only open parts. Assumed of the documents: an entry says it is the version it is listed as (otherwise the code installs one version's archive with another's requirements: C88_mislabelled_fails); for links, that a name stands for one package throughout; for resolving again, ranges or versions that print to themselves and a sound, unambiguous tree (always so when no name is there twice, C88_again_flat_partial). That the resolve gets done, whatever the order of answers, is C88_total_partial, for documents without cycles (C77 in the documents' terms).")
c("C89","partial",["C89_network_partial","C89_cached_partial","C89_uncached","C89_commands","C89_shared_fails","C89_spelling_fails","C89_missing_fails","C89_private_fails","C89_uncached_fails"],"Proved from an archive with a cache in every link mode, and from the cache where files are copied or cloned (always so for packages with install scripts), for archives whose files are placed apart. Fails with hard links (another package's files change), for commands written with detours (cache only), for private cache files, and for commands without a cache. The chmod of link_bin is C99's; folders' modes are not modelled.")
c("C90","partial",["Stack.C90_installed_partial","Stack.C90_first_partial","Stack.C90_flat_partial","Stack.C90_store_partial","Stack.C90_isolated_partial","Stack.C90_apply_isolated_partial","Stack.C90_apply_hoisted_partial","Stack.C90_reapply_isolated_partial","Stack.C90_reapply_hoisted_partial","Stack.C90_runs","Stack.C90_again_hoisted_partial","Stack.C90_again_isolated_partial"],"C88 and C80 together, also for the commands oro apply and oro reapply in a project without a lockfile (they succeed when all that is sought can be had), and a second oro apply when the registry says something else: the spec speaks of JSON documents, archives and Node's lookup only. Isolated linker: every order of responses. Hoisted linker: orders that answer a package's requirements before those of packages inside it, or trees without a name twice; other orders can go wrong (C80_fails, C01_fails). Names are plain and archives hold no node_modules folder; a name stands for one package throughout.")
c("C91","partial",["Tar.C91_always_partial","Tar.C91_done_partial","Tar.C91_exact_partial","Tar.C91_index_honest","Tar.C91_cache_partial","Tar.C91_alone","Tar.C91_ends","Tar.C91_no_failure_partial","Tar.C91_succeeds_partial","Tar.C91_bundled_fails","Tar.C91_race_fails","Tar.C91_evict_fails","Tar.C91_same_folder_fails"],"Files, contents, index and termination are proved for every schedule of any number of extractions into folders laid out as the linkers do (C91_exact_partial), up to collisions of the content hash. With nothing damaged in the cache, sound archives without bundled dependencies and a network that delivers, no extraction fails and each one succeeds (C91_no_failure_partial, C91_succeeds_partial). That an extraction only fails if it would fail alone is false in general: C91_race_fails, C91_evict_fails, C91_bundled_fails. Linking or copying one file, creating one path of folders and eviction are single steps.")
c("C92","proved",["Tar.C92_housed","Hoisted.C92_no_failure","Hoisted.C92_installed","Hoisted.C92_ends","Works.C92_works_partial","Works.C92_works_agreed","Hoisted.C92_order_fails"],"Joins C91 (concurrent extraction through the cache) with C33 and C80: the existence check, the extractions and the reading of manifests interleave arbitrarily, packages beginning in the order of the tree (which the code guarantees; C92_order_fails shows that it matters). Contents are compared up to collisions of the content hash (`pr`). The conclusion that the project works (C92_works_partial) is for responses arriving in an orderly way, or for projects without version conflicts (C92_works_agreed), as in C80.")
c("C93","proved",["Iso.C93_no_failure","Iso.C93_links_apart","Iso.C93_installed","Iso.C93_ends","Works.C93_works"],"C92 for the isolated linker. Packages may begin in any order, since no package is inside another's folder, and (as in C80) the order of responses while resolving does not matter. Extractions know nothing of symbolic links in the model; C93_links_apart shows that none is where they read or write. Contents are compared up to collisions of the content hash (`pr`).")
c("C94","partial",["Tar.C94_private","Tar.C94_scripts_partial","Hoisted.C94_hoisted","Hoisted.C94_hoisted_scripts_partial","Hoisted.C94_hardlink_fails","Iso.C94_isolated","Iso.C94_isolated_scripts_partial"],"Without hard links the property is proved for every new file at every moment of every install. For packages with scripts, in every mode, all files but package.json (C26_fails). Missing because the code does otherwise: with hard links the files of packages without scripts are shared with the cache (C94_hardlink_fails).")
c("C95","partial",["Hoisted.C95_extracted","Hoisted.C95_others","Hoisted.C95_outcomes","Hoisted.C95_no_failure","Hoisted.C95_installed","Hoisted.C95_ends","Hoisted.C95_pruned","Hoisted.C95_half_fails","Iso.C95_outcomes","Iso.C95_no_clobber"],"Hoisted linker: outcomes and effects from any start; completion from what pruning leaves. Missing because the code does otherwise: a half-extracted package, as an interruption leaves it, is taken for the package (C95_half_fails). Isolated linker: outcomes and links from any start; completion of a further install is not proved at the level of file operations.")
c("C96","partial",["Hoisted.C96_kept","Hoisted.C96_first","Hoisted.C96_next_partial","Hoisted.C96_again","Hoisted.C96_outside_partial","Hoisted.C96_linking"],"C33, C41, C92 and C95 along a whole history, at the level of file operations. Missing: changes of the tree that pruning overlooks (scoped or nested packages upgraded in place: C33_fails), where the code goes wrong; scripts are among the other events and must leave the packages' files alone (the linking of commands does, at every moment: C96_linking); the isolated linker.")
c("C97","proved",["Tar.C97_cached","Hoisted.C97_cached","Hoisted.C97_offline","Iso.C97_cached","Iso.C97_offline","Hoisted.C97_first","Hoisted.C97_next","Tar.C97_unverified_fails"],"Both linkers, every schedule. C97_first and C97_next follow the cache along the life of a project (C96). The premises are those of C92/C93: sound archives without bundled dependencies, nothing damaged in the cache. Packages without an integrity (git, addresses) are outside the property: they are cached but never found there (C97_unverified_fails).")
c("C98","partial",["Hoisted.C98_first","Hoisted.C98_next_partial","Hoisted.C98_goods_partial","Hoisted.C98_meta","Hoisted.C98_reapply","Hoisted.C98_reapply_outside","Hoisted.C98_cleared_fails","Hoisted.ExK.cleared_ex"],"Hoisted linker, down to file operations: interrupted at any moment and any number of times, with anything else happening in between that leaves node_modules alone. Interrupted attempts are also part of the histories of C96 (Kept.next). Further installs: changes that pruning notices only. Not covered: applying another tree next (false, C34_fails), linking commands and running scripts (C34_scripts_fails). False for a `reapply` interrupted while it clears node_modules (C98_cleared_fails: the meta file is believed and the missing files are never put back); running `reapply` again repairs it (C98_reapply).")
c("C99","partial",["Hoisted.C99_executable","Hoisted.C99_only","Hoisted.C99_commands","Hoisted.C99_kept","Hoisted.C99_first","Hoisted.C99_lone_partial","Hoisted.C99_shared_fails","Iso.C99_isolated","Iso.C99_isolated_only","Iso.Ex.C99_isolated_wrong_fails"],"Not Windows. Hoisted linker: at every moment and in every interleaving. Isolated linker: after a first install (commands are linked one after the other there); since it looks for the file in the package that is called like the command, it can make a file executable that nobody declares (C99_isolated_wrong_fails). That other files keep their bits is proved where the files of commands have one name each and are not the cache's (copies, clones); with hard links it is false of the code (C99_shared_fails).")
c("C100","partial",["Tar.C100_checked","Tar.C100_thorough_partial","Tar.C100_same","Tar.C100_unchecked","Tar.C100_grows","Tar.C100_unread_fails","Tar.C100_early_fails","Tar.C100_once_fails"],"The archive library is a parameter: something that reads when it wants to. Proved for libraries that read the tarball to its end before they end the stream (C100_thorough_partial). False for one that stops at the archive's end mark, as tar readers do: the integrity is then never checked and the stream ends without an error (C100_unread_fails). Entries are handed out before the check in any case (C100_early_fails), and the error is given only once (C100_once_fails).")
c("C101","partial",["C101_entries","C101_started","C101_same_partial","C101_ends","Hoisted.C101_record_partial","Iso.C46_update_partial","ExL.C101_moved_on_fails"],"Entries: proved for every lockfile and every place to stop. The next install: proved for projects without version conflicts (Agreed, as in C76), with no npm lockfile to fall back to, while the registry still offers the packages of the lockfile; false when a newer version has been published since, because the truncated file is accepted as a lockfile and what it no longer mentions is resolved anew (C101_moved_on_fails). C101_record_partial: the same for the record of what is installed (.orogene-meta.kdl) with the hoisted linker, for changes that the whole record would have let the install notice (as in C33_partial); the isolated linker gets the changes of C46_update_partial right whatever the record says. The KDL text is not modelled: Torn says which documents the beginning of a written text can be read as.")
c("C102","partial",["Auth.C102_all_or_nothing","Auth.C102_credentials","Auth.C102_again","Auth.C102_logout","Auth.C102_lost_fails","Setup.C102_asks_again","Setup.C102_refusal_fails"],"All or nothing: proved for every file and every place to stop. Credentials and trying again: for files and addresses as in C65. False: what was saved before is lost with the rest, for every registry (C102_lost_fails), because the file is emptied before it is written; with the rest goes a refusal of telemetry, which is on by default: at a terminal the user is asked again (C102_asks_again), but runs in CI send reports from then on (C102_refusal_fails). What is left may also be no KDL at all: then every command that reads it fails (as does login itself, C66_file_fails). The KDL text is not modelled: Torn says which documents the beginning of a written text can be read as.")
c("C103","partial",["PJson.C103_torn","PJson.C103_add","PJson.C103_remove","PJson.C103_reader_exists","PJson.C103_lost_fails"],"What is left is no JSON or the whole new object: proved at the level of the text, for every object, style and place to stop, and for every reader that reads JSON as in C41 and rejects the empty text and texts with open strings or brackets (C103_reader_exists: there is one). False: the old document is lost, because the file is emptied before it is written (C103_lost_fails).")
