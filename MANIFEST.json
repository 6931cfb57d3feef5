{
 "claims": [
  {
   "property": "C01",
   "status": "partial",
   "theorems": [
    "Oro.C01_step_iff",
    "Oro.C01_orderly_partial",
    "Oro.C01_offline_partial",
    "Oro.C01_rounds_partial",
    "Oro.C01_fails"
   ],
   "note": "The property is false of the code: C01_fails exhibits a schedule after which a package loads another copy than the one it was linked to. Proved: exact criterion per placement, and the full property for schedules that answer a package's requirements before starting on packages inside it (incl. fully locked resolves and round-based ones)."
  },
  {
   "property": "C02",
   "status": "proved",
   "theorems": [
    "Oro.C02_never_overwrites"
   ],
   "note": ""
  },
  {
   "property": "C03",
   "status": "proved",
   "theorems": [
    "Oro.C03_tree"
   ],
   "note": ""
  },
  {
   "property": "C04",
   "status": "proved",
   "theorems": [
    "Oro.C04_all_linked",
    "Oro.C04_declares"
   ],
   "note": ""
  },
  {
   "property": "C05",
   "status": "proved",
   "theorems": [
    "Oro.C05_links_sound"
   ],
   "note": ""
  },
  {
   "property": "C06",
   "status": "proved",
   "theorems": [
    "Oro.C06_counts"
   ],
   "note": ""
  },
  {
   "property": "C07",
   "status": "proved",
   "theorems": [
    "Oro.C07_shared_fetch"
   ],
   "note": ""
  },
  {
   "property": "C08",
   "status": "partial",
   "theorems": [
    "Oro.C08_offline_partial",
    "Oro.C08_agreed_partial",
    "Oro.C08_fails"
   ],
   "note": "False of the code (C08_fails: two response orders, two trees). Proved for resolves answered entirely by the lockfile, and for projects without version conflicts (C76), where the lockfile that is written is the same too."
  },
  {
   "property": "C09",
   "status": "proved",
   "theorems": [
    "Oro.C09_failed_fetch",
    "Oro.C09_why"
   ],
   "note": "C09_why is the converse: the only other causes of failure are unreadable requirements and lockfile entries."
  },
  {
   "property": "C10",
   "status": "proved",
   "theorems": [
    "Oro.C10_lock_nearest"
   ],
   "note": ""
  },
  {
   "property": "C52",
   "status": "proved",
   "theorems": [
    "Oro.C52_known_packages"
   ],
   "note": ""
  },
  {
   "property": "C11",
   "status": "proved",
   "theorems": [
    "Oro.C11_locked",
    "Oro.C11_unlocked"
   ],
   "note": ""
  },
  {
   "property": "C12",
   "status": "partial",
   "theorems": [
    "Oro.C12_fails",
    "Oro.C12_npm_fails",
    "Oro.C12_partial"
   ],
   "note": "False of the code, for every tree: locked mode rejects every lockfile read from a file (C12_fails for KDL, C12_npm_fails for npm). Proved: version and package entries agree; only the root entry differs."
  },
  {
   "property": "C13",
   "status": "proved",
   "theorems": [
    "Oro.C13_roundtrip",
    "Oro.C13_any_lockfile",
    "Oro.C13_integrity_lost",
    "Oro.C13_version_range",
    "Oro.C13_properties"
   ],
   "note": "For lockfiles of resolved trees; for arbitrary lockfiles an integrity without source is lost. KDL text syntax and Display/FromStr of Version and Integrity are trusted."
  },
  {
   "property": "C14",
   "status": "proved",
   "theorems": [
    "Oro.C14_canonical",
    "Oro.C14_faithful"
   ],
   "note": ""
  },
  {
   "property": "C15",
   "status": "proved",
   "theorems": [
    "Oro.C15_one_entry_each"
   ],
   "note": "Names are assumed to be of the form name or @scope/name."
  },
  {
   "property": "C16",
   "status": "partial",
   "theorems": [
    "Oro.C16_partial",
    "Oro.C16_flat_partial",
    "Oro.C16_fails"
   ],
   "note": "Proved for trees in which links lead to what is loaded (C05) and no other package around would do, in particular for flat trees: the second resolve makes no request, cannot fail, and gives the same packages at the same places and the same lockfile text. Otherwise the code breaks it: a re-resolve may drop a nested package."
  },
  {
   "property": "C17",
   "status": "proved",
   "theorems": [
    "Oro.C17_precedence",
    "Oro.C17_readable"
   ],
   "note": ""
  },
  {
   "property": "C18",
   "status": "partial",
   "theorems": [
    "Oro.C18_import_partial",
    "Oro.C18_workspace_fails"
   ],
   "note": "Proved for lockfiles whose entries are all in node_modules folders; workspace folders are imported as the root (C18_workspace_fails)."
  },
  {
   "property": "C19",
   "status": "proved",
   "theorems": [
    "Oro.C19_selection",
    "Oro.C19_sound",
    "Oro.C19_unversioned"
   ],
   "note": "node_semver's order and range membership are parameters. The pre-release rule for * and the fallback 0.0.0 are stated explicitly."
  },
  {
   "property": "C20",
   "status": "proved",
   "theorems": [
    "Oro.C20_satisfies"
   ],
   "note": ""
  },
  {
   "property": "C53",
   "status": "partial",
   "theorems": [
    "Oro.C53_resolved_satisfies_partial",
    "Oro.C53_fails",
    "Oro.C53_dir_fails"
   ],
   "note": "False for tags, bare names, git and (with another working directory) relative directories; proved for versions and ranges."
  },
  {
   "property": "C21",
   "status": "partial",
   "theorems": [
    "Oro.C21_roundtrip_partial",
    "Oro.C21_fails",
    "Oro.C21_panics"
   ],
   "note": "False of the code for some specifiers (C21_fails) and the parser can crash (C21_panics); the round trip is proved for all parsed specifiers outside the listed exceptions."
  },
  {
   "property": "C22",
   "status": "proved",
   "theorems": [
    "Oro.C22_target"
   ],
   "note": ""
  },
  {
   "property": "C23",
   "status": "proved",
   "theorems": [
    "Oro.C23_checked",
    "Oro.C23_reads",
    "Oro.C23_mismatch",
    "Oro.C23_integrity"
   ],
   "note": "ssri's streaming hasher is modelled as hashing the concatenation. C23_read_after_error records a limit: a reader that ignores the error and reads on sees a normal end of data."
  },
  {
   "property": "C24",
   "status": "proved",
   "theorems": [
    "Oro.C24_buffering",
    "Oro.C24_memory"
   ],
   "note": ""
  },
  {
   "property": "C25",
   "status": "partial",
   "theorems": [
    "Oro.C25_network_partial",
    "Oro.C25_cached_partial",
    "Oro.C25_fails",
    "Oro.C25_shared_fails"
   ],
   "note": "False of the code: paths with .. escape (C25_fails), and extracting a cached package with two names for one file overwrites files of other packages through hard links (C25_shared_fails). Proved for paths that do not leave the folder."
  },
  {
   "property": "C26",
   "status": "partial",
   "theorems": [
    "Oro.C26_network_partial",
    "Oro.C26_cached",
    "Oro.C26_fails"
   ],
   "note": "False for package.json itself on extraction from the network; proved for all other files, and for all files when served from the cache."
  },
  {
   "property": "C27",
   "status": "partial",
   "theorems": [
    "Oro.C27_index_honest",
    "Oro.C27_extract_partial",
    "Oro.C27_broken_index_fails",
    "Oro.C27_fallback_fails",
    "Oro.C27_twice_fails"
   ],
   "note": "Proved: success means the right files, after any history of extractions and cache damage, into an empty folder. False: a damaged index entry, or a cache that fails after a subfolder was created, makes extraction fail instead of using the network; extracting twice into one folder with hard links empties the files. Collision freedom of the integrity and plain distinct paths are assumed."
  },
  {
   "property": "C28",
   "status": "proved",
   "theorems": [
    "Oro.C28_names"
   ],
   "note": "Unix path semantics. C28_target_may_escape records that targets may contain '..'."
  },
  {
   "property": "C54",
   "status": "partial",
   "theorems": [
    "Oro.C54_fails"
   ],
   "note": "False of the code for every such package; nothing positive remains to be proved."
  },
  {
   "property": "C55",
   "status": "partial",
   "theorems": [
    "Oro.C55_fails",
    "Oro.C55_partial"
   ],
   "note": "False for archives with long-name records; proved for archives whose paths fit the header."
  },
  {
   "property": "C29",
   "status": "proved",
   "theorems": [
    "Oro.Scripts.C29_after_dependencies"
   ],
   "note": "All schedules, graphs and concurrency limits. The handling of a package is one task; that a child process has ended when wait() returns is the operating system's."
  },
  {
   "property": "C30",
   "status": "partial",
   "theorems": [
    "Oro.Scripts.C30_once",
    "Oro.Scripts.C30_bounded",
    "Oro.Scripts.C30_ends_partial",
    "Oro.Scripts.C30_cycle",
    "Oro.Scripts.C30_fails"
   ],
   "note": "False of the code: pending packages that depend on each other block the phase for ever (C30_cycle, C30_fails). Proved: exactly once, bounded, and always ending when no two pending packages depend on each other."
  },
  {
   "property": "C31",
   "status": "proved",
   "theorems": [
    "Oro.Scripts.C31_success",
    "Oro.Scripts.C31_failure",
    "Oro.Scripts.C31_optional",
    "Oro.Scripts.C31_unreadable"
   ],
   "note": "Scripts.C31_unreadable records that an unreadable package.json of an optional package does fail the phase."
  },
  {
   "property": "C56",
   "status": "proved",
   "theorems": [
    "Oro.Scripts.C56_limit"
   ],
   "note": ""
  },
  {
   "property": "C37",
   "status": "partial",
   "theorems": [
    "Oro.C37_inverse",
    "Oro.C37_inside_partial",
    "Oro.C37_fails"
   ],
   "note": "Proved for package folders and for regular paths inside them; a path below an unknown scoped folder, or with node_modules twice in a row, is attributed to the wrong package (C37_fails)."
  },
  {
   "property": "C32",
   "status": "partial",
   "theorems": [
    "Oro.Hoisted.C32_top_partial",
    "Oro.Hoisted.C32_unknown",
    "Oro.Hoisted.C32_isolated",
    "Oro.Hoisted.C32_scoped_fails"
   ],
   "note": "Proved for unscoped top-level entries on any disk and for a node_modules without meta file or left by the isolated linker. False for scoped packages (C32_scoped_fails), and for packages nested in an unchanged one (kept as a whole, C32_top_partial)."
  },
  {
   "property": "C33",
   "status": "partial",
   "theorems": [
    "Oro.Hoisted.C33_fresh",
    "Oro.Hoisted.C33_switch",
    "Oro.Hoisted.C33_partial",
    "Oro.Hoisted.C33_history_partial",
    "Oro.Hoisted.C33_again",
    "Oro.Hoisted.C33_concurrent",
    "Oro.Hoisted.C33_concurrent_partial",
    "Oro.Hoisted.C33_concurrent_ends",
    "Oro.Hoisted.C33_fails"
   ],
   "note": "Packages are extracted concurrently and file by file, in any interleaving: the outcome is that of one after the other (C33_concurrent), without failures or deadlock, and within a bound. Proved from an empty or unknown node_modules and over any history of applies whose changes pruning notices; false for upgrades of scoped or nested packages (C33_fails). Fetching is assumed to deliver the package contents (for extractions through one cache at the same time this is C91); packages have no bundled node_modules."
  },
  {
   "property": "C34",
   "status": "partial",
   "theorems": [
    "Oro.Hoisted.C34_same_partial",
    "Oro.Hoisted.C34_fresh_partial",
    "Oro.Hoisted.C34_concurrent",
    "Oro.Hoisted.C34_fails",
    "Oro.Hoisted.C34_scripts_fails",
    "Oro.Whole.C34_wiped",
    "Oro.Whole.C34_wiped_isolated",
    "Oro.Iso.C34_isolated_fresh_partial",
    "Oro.Iso.C34_isolated_fails"
   ],
   "note": "Hoisted layout: proved for repeating the same apply after an interruption at any point (C34_concurrent: the points reached while several packages are extracted are among these); false when another tree is applied next (C34_fails) and for lifecycle scripts and commands (C34_scripts_fails). Isolated layout: proved for an interrupted first install; false for an interrupted change, since pruning leaves the old meta file (C34_isolated_fails)."
  },
  {
   "property": "C35",
   "status": "partial",
   "theorems": [
    "Oro.Hoisted.C35_fresh_partial",
    "Oro.Hoisted.C35_new_partial",
    "Oro.Hoisted.C35_concurrent_partial",
    "Oro.Hoisted.C35_new_concurrent_partial",
    "Oro.Hoisted.C35_alone",
    "Oro.Hoisted.C35_ends",
    "Oro.Hoisted.C35_alone_ends",
    "Oro.Hoisted.C35_fails",
    "Oro.Hoisted.C35_race_fails",
    "Oro.Hoisted.C35_same_race_fails",
    "Oro.Hoisted.C35_order_fails",
    "Oro.Iso.C35_isolated_partial",
    "Oro.Iso.C35_isolated_only",
    "Oro.Iso.C35_isolated_names_fails",
    "Oro.Iso.C35_isolated_wrong_fails",
    "Oro.Iso.C35_isolated_again_fails"
   ],
   "note": "Hoisted: proved for packages extracted in this run, for any number of packages linked at a time and any interleaving of their steps, if linking comes to its end (C35_concurrent_partial); with one at a time it does (C35_alone, C35_alone_ends); it never goes on for ever, with a bound on its steps (C35_ends); with two at a time it can fail when both make the folder for commands (C35_race_fails) or link the same command (C35_same_race_fails); and even one at a time when nested packages are added to what was installed before (C35_order_fails); false for packages that were already installed: a second apply removes node_modules/.bin (C35_fails). Isolated: proved after a first install for commands called like their package; false for all others (C35_isolated_names_fails), which may open another package's file (C35_isolated_wrong_fails); and once node_modules/.bin exists, adding a dependency with a command makes apply fail (C35_isolated_again_fails)."
  },
  {
   "property": "C36",
   "status": "partial",
   "theorems": [
    "Oro.Cli.C36_order",
    "Oro.Cli.C36_success",
    "Oro.Cli.C36_lockfile_only_partial",
    "Oro.Cli.C36_fails",
    "Oro.Cli.C36_no_apply",
    "Oro.Cli.C36_no_lockfile",
    "Oro.Cli.C36_no_scripts",
    "Oro.Cli.C36_scripts",
    "Oro.Cli.C36_apply_forced"
   ],
   "note": "Proved for every option set and every behaviour of the steps, except that with lockfile-only an unreadable meta file in node_modules is deleted (C36_fails)."
  },
  {
   "property": "C48",
   "status": "proved",
   "theorems": [
    "Oro.Cli.C48_add_one",
    "Oro.Cli.C48_add",
    "Oro.Cli.C48_remove",
    "Oro.Cli.C48_add_order",
    "Oro.Cli.C48_remove_order",
    "Oro.Cli.C48_add_defined",
    "Oro.Cli.C48_order_fails",
    "Oro.Cli.C48_panics"
   ],
   "note": "As maps: the relative order of the other dependencies is not kept (C48_order_fails), and a section that is not an object crashes the command (C48_panics)."
  },
  {
   "property": "C41",
   "status": "partial",
   "theorems": [
    "Oro.PJson.C41_written",
    "Oro.PJson.C41_value",
    "Oro.PJson.C41_edit",
    "Oro.PJson.C41_style",
    "Oro.PJson.C41_reader_exists",
    "Oro.PJson.C41_zero_fails",
    "Oro.PJson.C41_cr_fails",
    "Oro.PJson.C41_compact_fails"
   ],
   "note": "Value: for every value and every document. Style: byte for byte for every document in the pretty layout with at least one space or tab per level and \\n or \\r\\n; false for documents without indentation, with \\r line ends, or in one line. serde_json's printer is modelled, its reader assumed to read canonical texts correctly (such a reader exists: C41_reader_exists)."
  },
  {
   "property": "C38",
   "status": "partial",
   "theorems": [
    "Oro.Auth.C38_only_there",
    "Oro.Auth.C38_source",
    "Oro.Auth.C38_sent",
    "Oro.Auth.C38_folder",
    "Oro.Auth.C38_port_fails",
    "Oro.Auth.C38_prefix_fails"
   ],
   "note": "Proved with 'registry' meaning host and path prefix, for all URLs, credential options and requests. False in the stricter sense: port and scheme are ignored (C38_port_fails), and a registry path without a final slash covers sibling paths (C38_prefix_fails). Redirects are followed inside reqwest and not modelled."
  },
  {
   "property": "C39",
   "status": "partial",
   "theorems": [
    "Oro.Auth.C39_fails",
    "Oro.Auth.C39_readback",
    "Oro.Auth.C39_saved",
    "Oro.Auth.C39_used",
    "Oro.Auth.C39_set_others",
    "Oro.Auth.C39_clear",
    "Oro.Auth.C39_scoped",
    "Oro.Auth.C39_bare_fails",
    "Oro.Auth.C39_last_property"
   ],
   "note": "Reading back through get_credentials_by_uri never returns what was saved (C39_fails: token and legacy-auth are swapped); the credentials saved are the ones a client built from the configuration uses (C39_used). Frame conditions proved for all documents; an auth node without a block makes saving a no-op (C39_bare_fails)."
  },
  {
   "property": "C40",
   "status": "partial",
   "theorems": [
    "Oro.Config.C40_layers",
    "Oro.Config.C40_tables",
    "Oro.Config.C40_switch",
    "Oro.Config.C40_reversed_partial",
    "Oro.Config.C40_values",
    "Oro.Config.C40_env_fails",
    "Oro.Config.C40_reversed_fails",
    "Oro.Config.C40_number_fails",
    "Oro.Config.C40_switch_words",
    "Oro.Config.C40_equals",
    "Oro.Config.C40_table_entries",
    "Oro.Config.C40_spelled"
   ],
   "note": "Proved for layers, switches and valued options, for every declaration, configuration, order and command line. False: '--name' on the command line is overridden by configuration for switches declared 'no-name' (C40_reversed_fails), environment variables cannot set options with a dash (C40_env_fails), numbers and boolean words configured for valued options are dropped (C40_number_fails). clap and config are modelled, not proved."
  },
  {
   "property": "C42",
   "status": "partial",
   "theorems": [
    "Oro.Mkdirp.C42_threads",
    "Oro.Mkdirp.C42_threads_error",
    "Oro.Mkdirp.C42_exact",
    "Oro.Mkdirp.C42_effect",
    "Oro.Mkdirp.C42_alone",
    "Oro.Mkdirp.C42_fresh",
    "Oro.Mkdirp.C42_fails",
    "Oro.Mkdirp.C42_race_fails"
   ],
   "note": "Honest cache and existence after success are proved for all interleavings of any number of calls; exact success condition for single calls; all calls below a new folder succeed. False: a folder that exists while only its parent is cached makes the call fail (C42_fails), and so do two simultaneous calls for one new folder (C42_race_fails). Nothing is removed meanwhile."
  },
  {
   "property": "C43",
   "status": "partial",
   "theorems": [
    "Oro.Npm.C43_registry",
    "Oro.Npm.C43_parsed",
    "Oro.Npm.C43_lookup",
    "Oro.Npm.C43_memo",
    "Oro.Npm.C43_address",
    "Oro.Npm.C43_address_fails"
   ],
   "note": "Proved for all registry settings, parsed specifiers and interleavings of lookups, for registries whose address ends with a slash. A registry address without final slash loses its last part (C43_address_fails)."
  },
  {
   "property": "C44",
   "status": "proved",
   "theorems": [
    "Oro.Meta.C44_full",
    "Oro.Meta.C44_reduce",
    "Oro.Meta.C44_corgi",
    "Oro.Meta.C44_corgi_iff",
    "Oro.Meta.C44_folder",
    "Oro.Meta.C44_folder_version",
    "Oro.Meta.C44_folder_value"
   ],
   "note": "Conversions between the types, for all packuments; deprecation notes are lost on the way from reduced to full (C44_corgi), which the property does not mention. Serialisation is not modelled."
  },
  {
   "property": "C45",
   "status": "partial",
   "theorems": [
    "Oro.ScriptPath.C45_folders",
    "Oro.ScriptPath.C45_environment",
    "Oro.ScriptPath.C45_inherited",
    "Oro.ScriptPath.C45_inherited_all",
    "Oro.ScriptPath.C45_above_fails",
    "Oro.ScriptPath.C45_unset_fails",
    "Oro.ScriptPath.C45_colon_fails"
   ],
   "note": "Proved for projects given by their canonical absolute path, on Unix. False when the project's path is relative or leads through a link (folders above the project are added, C45_above_fails), when no PATH variable is set, and when a folder name contains a colon."
  },
  {
   "property": "C49",
   "status": "partial",
   "theorems": [
    "Oro.Shim.C49_env",
    "Oro.Shim.C49_direct",
    "Oro.Shim.C49_references",
    "Oro.Shim.C49_interpolated",
    "Oro.Shim.C49_plain",
    "Oro.Shim.C49_set",
    "Oro.Shim.C49_envset",
    "Oro.Shim.C49_quotes",
    "Oro.Shim.C49_equals_fails",
    "Oro.Shim.C49_brace_fails",
    "Oro.Shim.C49_path_fails"
   ],
   "note": "Proved for every header with well-formed assignments (with or without env and -S) and every value made of plain text and references. False: a value that contains '=' is taken for the program (C49_equals_fails), a closing brace after a reference without braces is dropped (C49_brace_fails), and the path after a variable becomes part of its name (C49_path_fails). The fixed text of the shim files is not modelled."
  },
  {
   "property": "C50",
   "status": "partial",
   "theorems": [
    "Oro.Startup.C50_clean",
    "Oro.Startup.C50_safe",
    "Oro.Startup.C50_missing",
    "Oro.Startup.C50_folder_fails"
   ],
   "note": "Proved for every folder of logs in which nothing but files and links is found. False otherwise: a folder that sorts first makes cleaning, and thereby every command, fail (C50_folder_fails). The choice of the new log's name is not modelled."
  },
  {
   "property": "C51",
   "status": "partial",
   "theorems": [
    "Oro.Startup.C51_pair",
    "Oro.Startup.C51_pair_error",
    "Oro.Startup.C51_nested",
    "Oro.Startup.C51_nested_error",
    "Oro.Startup.C51_nested_panics",
    "Oro.Startup.C51_nested_fails"
   ],
   "note": "Exact results for all strings. False that malformed input never crashes: the exact condition for a crash is proved (C51_nested_panics), an address that contains '=' is one case (C51_nested_fails)."
  },
  {
   "property": "C57",
   "status": "proved",
   "theorems": [
    "Oro.Startup.C57_root"
   ],
   "note": "For every current folder and every file tree."
  },
  {
   "property": "C46",
   "status": "partial",
   "theorems": [
    "Oro.Iso.C46_distinct",
    "Oro.Iso.C46_fresh",
    "Oro.Iso.C46_update_partial",
    "Oro.Iso.C46_again",
    "Oro.Iso.C46_history_partial",
    "Oro.Iso.C46_link_resolves",
    "Oro.Iso.C46_sees",
    "Oro.Iso.C46_project_sees",
    "Oro.Iso.C46_concurrent",
    "Oro.Iso.C46_concurrent_partial",
    "Oro.Iso.C46_concurrent_count",
    "Oro.Iso.C46_concurrent_ends",
    "Oro.Iso.C46_update_fails",
    "Oro.Iso.C46_scope_fails",
    "Oro.Iso.C46_phantom_fails",
    "Oro.Iso.C46_collision_fails"
   ],
   "note": "Exact content of node_modules after installing, for all trees, orders and hashes that tell packages apart; after a change, and any history of changes, for the changes in Compatible (the folders for commands aside, see C35); the same when several packages are extracted and linked at a time, file by file and link by link, in any order (C46_concurrent*). The code breaks the property: another version at the same place is not unpacked, a second dependency of a scope makes apply fail, packages see the project's dependencies, and 32 bits of hash can collide."
  },
  {
   "property": "C47",
   "status": "partial",
   "theorems": [
    "Oro.Iso.C47_packages_kept",
    "Oro.Iso.C47_others_removed",
    "Oro.Iso.C47_links",
    "Oro.Iso.C47_scope_folder_fails",
    "Oro.Iso.C47_right_removed_fails",
    "Oro.Iso.C47_stale_fails",
    "Oro.Iso.C47_scoped_fails"
   ],
   "note": "The store part holds (except empty scope folders); the link part is false: right links are removed and made again, stale and scoped ones are never looked at."
  },
  {
   "property": "C58",
   "status": "proved",
   "theorems": [
    "Oro.C58_bounded"
   ],
   "note": "For every reachable state of the resolver."
  },
  {
   "property": "C59",
   "status": "proved",
   "theorems": [
    "Oro.C59_shallow_first"
   ],
   "note": "For every step that ends a batch; names are assumed totally ordered."
  },
  {
   "property": "C61",
   "status": "proved",
   "theorems": [
    "Oro.C61_forms",
    "Oro.C61_unambiguous",
    "Oro.C61_empty_fails",
    "Oro.C61_address_fails"
   ],
   "note": "For the grammar in Spec/Forms.lean; version, range and URL syntax are those of the external parsers. Two forms that npm accepts are not in orogene's grammar and are shown to be rejected: empty texts and tarball addresses."
  },
  {
   "property": "C60",
   "status": "partial",
   "theorems": [
    "Oro.C60_reads_back_partial",
    "Oro.C60_less",
    "Oro.C60_entries",
    "Oro.C60_requirement",
    "Oro.C60_git_not_pinned",
    "Oro.C60_unpinned_fails",
    "Oro.C60_workspace_fails",
    "Oro.C60_ssh_fails"
   ],
   "note": "Holds for registry packages, directories and git repositories with a commit; the code breaks it for git repositories without a commit (resolving never pins one), for linked workspaces and for ssh addresses."
  },
  {
   "property": "C62",
   "status": "partial",
   "theorems": [
    "Oro.Fetch.C62_registry",
    "Oro.Fetch.C62_tarball",
    "Oro.Fetch.C62_direct_partial",
    "Oro.Fetch.C62_git_partial",
    "Oro.Fetch.C62_dir_fails",
    "Oro.Fetch.C62_git_fails",
    "Oro.Fetch.C62_git_alone_fails",
    "Oro.Fetch.C62_install_fails"
   ],
   "note": "Holds for registry packages and for resolving a directory given on its own, or a repository given by its address. The code breaks it: requirements on directories crash, requirements on hosted repositories without a commit crash, and no directory or repository can be installed."
  },
  {
   "property": "C63",
   "status": "partial",
   "theorems": [
    "Oro.Fetch.C63_clone_partial",
    "Oro.Fetch.C63_fallback_partial",
    "Oro.Fetch.C63_leftover_fails",
    "Oro.Fetch.C63_address_panics",
    "Oro.Fetch.C63_archive_address_fails",
    "Oro.Fetch.C63_addresses",
    "Oro.Fetch.C63_v_tags_fails",
    "Oro.Fetch.C63_archive_fails",
    "Oro.Fetch.C63_bitbucket_fails"
   ],
   "note": "Holds for specifiers with an address and for hosted repositories whose archive can not be had, if tags are written as versions are printed. The code breaks it: tags with a v, hosted repositories with a commit whose archive is delivered, the address of archives at GitHub, Bitbucket addresses."
  },
  {
   "property": "C64",
   "status": "partial",
   "theorems": [
    "Oro.Config.C64_value",
    "Oro.Config.C64_options",
    "Oro.Config.C64_beside_fails",
    "Oro.Config.C64_block_fails",
    "Oro.Config.C64_second_fails"
   ],
   "note": "Holds for nodes that are a flag, a value, a list, properties or a block. The code breaks it: of a node that mixes these, and of a second options block, the rest is silently dropped."
  },
  {
   "property": "C65",
   "status": "partial",
   "theorems": [
    "Oro.Auth.C65_login_then_use",
    "Oro.Auth.C65_address_fails",
    "Oro.Auth.C65_entries_fails",
    "Oro.Auth.C65_two_fails",
    "Oro.Auth.C65_short_fails"
   ],
   "note": "Holds for files with at most one auth section that holds nothing but registries' nodes, and addresses without closing braces and equal signs. The code breaks it otherwise, and for addresses that are no full URLs (the form in the help text)."
  },
  {
   "property": "C66",
   "status": "partial",
   "theorems": [
    "Oro.Login.C66_credentials",
    "Oro.Login.C66_command",
    "Oro.Login.C66_scope",
    "Oro.Login.C66_requests",
    "Oro.Login.C66_waits",
    "Oro.Login.C66_retry_fails",
    "Oro.Login.C66_www_fails",
    "Oro.Login.C66_file_fails",
    "Oro.Login.C66_reasons"
   ],
   "note": "Holds for files and addresses as in C65. The code breaks it: it crashes on a retry time that is no number and on headers that are not plain text, and it cannot log in where there is no configuration file yet. The server's answers are any; reading JSON, numbers and lower case are parameters; retries of the HTTP client are not modelled."
  },
  {
   "property": "C67",
   "status": "partial",
   "theorems": [
    "Oro.Login.C67_cleared",
    "Oro.Login.C67_later",
    "Oro.Login.C67_revoke_fails",
    "Oro.Login.C67_leak_fails"
   ],
   "note": "The local part holds (for later commands: for files and addresses as in C65). The code breaks the rest: the registry is never asked to delete a token that was saved by a login, and a saved legacy token (name and password) is put into an address."
  },
  {
   "property": "C68",
   "status": "partial",
   "theorems": [
    "Oro.Npm.C68_packument",
    "Oro.Npm.C68_after_login",
    "Oro.Npm.C68_tarball",
    "Oro.Npm.C68_slash_fails",
    "Oro.Npm.C68_tarball_fails",
    "Oro.Npm.C68_scoped_fails"
   ],
   "note": "Holds for descriptions from registries whose address ends with a slash, and for archives at registry.npmjs.org. The code breaks it otherwise: other archives are always asked for without credentials, and so are descriptions when the registry's address does not end with a slash."
  },
  {
   "property": "C69",
   "status": "partial",
   "theorems": [
    "Oro.Npm.C69_used",
    "Oro.Npm.C69_spelling_fails"
   ],
   "note": "Holds for files with at most one section of scoped registries, with one text for each scope, and one spelling of the scope. The code breaks it: with the other spelling (with or without @) in the file, the old registry may be used still."
  },
  {
   "property": "C70",
   "status": "partial",
   "theorems": [
    "Oro.Setup.C70_recorded",
    "Oro.Setup.C70_asked_once",
    "Oro.Setup.C70_off",
    "Oro.Setup.C70_optin_fails",
    "Oro.Setup.C70_panic_fails",
    "Oro.Setup.C70_two_fails"
   ],
   "note": "Recording and asking once hold for files with one options block and at most one node for each of the two options. The code breaks the rest: telemetry is on unless it is switched off, so runs in CI and in scripts send reports without consent, and so does every run after the first one in a script; files with several options blocks crash the setup or make it ask for ever."
  },
  {
   "property": "C71",
   "status": "partial",
   "theorems": [
    "Oro.Proxy.C71_via",
    "Oro.Proxy.C71_none",
    "Oro.Proxy.C71_last_off",
    "Oro.Proxy.C71_last_url",
    "Oro.Proxy.C71_default",
    "Oro.Proxy.C71_flag_fails",
    "Oro.Proxy.C71_password_fails"
   ],
   "note": "Which proxy is used for which host is proved for all options and for all sequences of calls of the library's builder. The code breaks two parts: --no-proxy does not switch a configured address off, and passwords are sent in their %xx form."
  },
  {
   "property": "C72",
   "status": "partial",
   "theorems": [
    "Oro.Bins.C72_commands_partial",
    "Oro.Bins.C72_directories_fails",
    "Oro.Bins.C72_dot_fails",
    "Oro.Bins.C72_absolute_fails"
   ],
   "note": "Proved for the three forms of the field bin. The code breaks it for directories.bin: the folder is looked for in the working directory of the process instead of the package, so installing fails or other files become commands; written ./folder it never gives any."
  },
  {
   "property": "C73",
   "status": "proved",
   "theorems": [
    "Oro.Scripts.C73_events",
    "Oro.Scripts.C73_ignored",
    "Oro.Scripts.C73_order",
    "Oro.Scripts.C73_once",
    "Oro.Scripts.C73_failure",
    "Oro.Iso.C73_isolated_pending"
   ],
   "note": "All phases of rebuild, over the transition system of C29-C31 for each. Which packages are pending is part of C33 and C46; scripts that stay unrun after an interrupted apply are C34_scripts_fails."
  },
  {
   "property": "C74",
   "status": "partial",
   "theorems": [
    "Oro.Add.C74_registry",
    "Oro.Add.C74_range",
    "Oro.Add.C74_exact",
    "Oro.Add.C74_git_partial",
    "Oro.Add.C74_dir_fails",
    "Oro.Add.C74_package_json"
   ],
   "note": "Proved for registry packages and for the entries of package.json. For repositories it is proved for the addresses that are printed the way they are read (GitPrints, see C21); for directories the code breaks it: the entry written has no working meaning, and the command crashes on it before package.json is written."
  },
  {
   "property": "C75",
   "status": "proved",
   "theorems": [
    "Oro.C75_follows",
    "Oro.C75_ends",
    "Oro.C75_removed",
    "Oro.C75_remove"
   ],
   "note": "C75_remove joins it with the lockfile written by the last install, for trees that are sound and unambiguous (the class of C16_partial)."
  },
  {
   "property": "C76",
   "status": "proved",
   "theorems": [
    "Oro.C76_flat",
    "Oro.C76_keeps",
    "Oro.C76_ends",
    "Oro.C08_agreed_partial"
   ],
   "note": "The class of projects is Agreed (Spec/Agree.lean)."
  },
  {
   "property": "C77",
   "status": "partial",
   "theorems": [
    "Oro.C77_bounded_partial",
    "Oro.C77_acyclic_partial",
    "Oro.C75_ends",
    "Oro.C76_ends",
    "Oro.C77_fails"
   ],
   "note": "False of the code: two versions of a package that require each other are nested forever. Proved: a run takes at most one event per package of the tree and three per requirement, so it ends if the tree stops growing; when no package can require itself through others, the length of a run is bounded by the depth and width of the requirements; with the bounds given by C75 and C76 for their projects."
  },
  {
   "property": "C78",
   "status": "partial",
   "theorems": [
    "Oro.C78_named_partial",
    "Oro.Spelled.C78_spelled_partial",
    "Oro.Spelled.C78_registry_name",
    "Oro.Spelled.C78_twice_fails",
    "Oro.Spelled.C78_case_fails",
    "Oro.Spelled.C78_alias_fails"
   ],
   "note": "False of the code: names are compared without case and a version is all that is compared, so a requirement may get the package of a name that differs in case, or the package another requirer has given that name as an alias. Proved when each name stands for one package throughout, for all schedules and lockfiles."
  },
  {
   "property": "C79",
   "status": "partial",
   "theorems": [
    "Oro.Docs.C79_manifest",
    "Oro.Docs.C79_version",
    "Oro.Docs.C79_packument",
    "Oro.Docs.C79_other_fields",
    "Oro.Docs.C79_order",
    "Oro.Docs.C79_lookup",
    "Oro.Docs.C79_build",
    "Oro.Docs.C79_name",
    "Oro.Docs.C79_one_version_fails",
    "Oro.Docs.C79_both_fails",
    "Oro.Docs.C79_license_fails",
    "Oro.Docs.C79_script_fails",
    "Oro.Docs.C79_inner_fails",
    "Oro.Docs.C79_name_exact"
   ],
   "note": "The reading itself is exact: what is read is what is written, for all documents, and other fields and the order do not matter. The code breaks the rest: one version with an odd entry makes all of them unreadable, both spellings of bundledDependencies make a package.json unreadable, a package without name is not installed from a folder because of a license of the old form, and one script that is no text makes the commands unreadable."
  },
  {
   "property": "C80",
   "status": "partial",
   "theorems": [
    "Oro.Works.C80_isolated",
    "Oro.Works.C80_isolated_commands",
    "Oro.Works.C80_store",
    "Oro.Works.C80_isolated_later_partial",
    "Oro.Works.C80_agreed",
    "Oro.Works.C80_installed",
    "Oro.Works.C80_first_partial",
    "Oro.Works.C80_later_partial",
    "Oro.Whole.C80_command_isolated",
    "Oro.Whole.C80_command_hoisted",
    "Oro.Works.C80_fails"
   ],
   "note": "Isolated layout: holds after every first install, for every order of responses and of packages, with or without commands, and after later installs the linker gets right (C46). Hoisted layout: false of the code (C80_fails: answers arriving late put a package where others find it instead of theirs); it holds for projects without version conflicts whatever the order of responses, and for any project when responses come in order. Assumed: plain package names, packages without node_modules of their own, and for the store digits that tell packages apart (they need not: C46_collision_fails)."
  },
  {
   "property": "C81",
   "status": "partial",
   "theorems": [
    "Oro.Again.C81_resolve_partial",
    "Oro.Again.C81_hoisted_partial",
    "Oro.Again.C81_isolated_partial",
    "Oro.Again.C81_hoisted_agreed_partial",
    "Oro.Again.C81_isolated_agreed",
    "Oro.Whole.C81_command_hoisted_partial",
    "Oro.Whole.C81_command_isolated_partial",
    "Oro.Again.C81_hoisted_fails",
    "Oro.Again.C81_resolve_fails"
   ],
   "note": "Holds for the isolated layout, commands included, and for the hoisted one except commands, when the first tree is sound and unambiguous (the class of C16_partial; always so without version conflicts, C81_*_agreed) and the packages are registry packages whose entries read back (C22, C60). The code breaks the rest: the second run of the hoisted linker removes every command (C81_hoisted_fails), and from an unsound tree the second resolve gives another tree (C81_resolve_fails). Proved after a first install into a fresh node_modules, and for the commands themselves (C81_command_*: the second `oro apply` always succeeds)."
  },
  {
   "property": "C82",
   "status": "partial",
   "theorems": [
    "Oro.Whole.C82_independent",
    "Oro.Whole.C82_hoisted",
    "Oro.Whole.C82_isolated",
    "Oro.Whole.C82_fails"
   ],
   "note": "The first half is proved for both layouts: what was there before makes no difference, and when the project resolves the command succeeds with exactly the resolved packages, commands, lockfile and meta file (assuming plain names and scripts that change nothing in node_modules). The second half is false of the code: node_modules is removed before package.json is read (C82_fails)."
  },
  {
   "property": "C83",
   "status": "partial",
   "theorems": [
    "Oro.View.C83_reads",
    "Oro.View.C83_as_installed",
    "Oro.View.C83_succeeds",
    "Oro.View.C83_header",
    "Oro.View.C83_about",
    "Oro.View.C83_dist",
    "Oro.View.C83_deprecated",
    "Oro.View.C83_published",
    "Oro.View.C83_commands_partial",
    "Oro.View.C83_dependencies_partial",
    "Oro.View.C83_sizes_fails",
    "Oro.View.C83_scoped_fails",
    "Oro.View.C83_directories_fails",
    "Oro.View.C83_narrow_fails",
    "Oro.View.C83_license_fails",
    "Oro.View.C83_times_fails"
   ],
   "note": "What is printed is what the answer says, and the answer is read as an install reads it (C83_as_installed). The rest is false of the code: a scoped package with one unnamed command is shown with a command an install does not make, directories.bin is not shown, the command fails on narrow terminals with many dependencies, and a license object or an answer without publishing times makes it fail although the package can be installed."
  },
  {
   "property": "C84",
   "status": "partial",
   "theorems": [
    "Oro.Ping.C84_asks_partial",
    "Oro.Ping.C84_answers",
    "Oro.Ping.C84_json_partial",
    "Oro.Ping.C84_slash_fails",
    "Oro.Ping.C84_plain_fails"
   ],
   "note": "Proved for registries whose address ends in a slash; without it the last segment is lost (C84_slash_fails). With --json an answer that is not JSON makes the command fail (C84_plain_fails)."
  },
  {
   "property": "C85",
   "status": "partial",
   "theorems": [
    "Oro.LogFile.C85_free",
    "Oro.LogFile.C85_apart_partial",
    "Oro.LogFile.C85_own_partial",
    "Oro.LogFile.C85_shared_fails"
   ],
   "note": "False of the code: the name is checked against the working directory, not against the folder of logs, so two runs started in the same moment share one file. Proved for runs whose time stamps differ."
  },
  {
   "property": "C86",
   "status": "partial",
   "theorems": [
    "Oro.Life.C86_command_partial",
    "Oro.Life.C86_life_partial",
    "Oro.Life.C86_goes_on",
    "Oro.Life.C86_works_partial",
    "Oro.Life.C86_again_partial",
    "Oro.Life.C86_agreed"
   ],
   "note": "Hoisted linker. C86_agreed is total: for projects that never have version conflicts or scoped packages, every install command of every history succeeds, the project works and has exactly the packages it needs. In general (C86_command_partial, C86_life_partial) the changes between installed trees must be ones that pruning notices: those it overlooks are C33_fails. Isolated histories are C46_history_partial at the level of the linker."
  },
  {
   "property": "C87",
   "status": "partial",
   "theorems": [
    "Oro.Whole.C87_reported",
    "Oro.Whole.C87_fails",
    "Oro.Whole.C87_reapply_partial"
   ],
   "note": "The failure is reported and the lockfile left alone (C87_reported), and reapply runs everything again (C87_reapply_partial); but apply, run again, succeeds without the scripts (C87_fails). Hoisted linker."
  },
  {
   "property": "C88",
   "status": "partial",
   "theorems": [
    "Oro.Stack.C88_packages_partial",
    "Oro.Stack.C88_links_partial",
    "Oro.Stack.C88_succeeds_partial",
    "Oro.Stack.C88_lockfile_partial",
    "Oro.Stack.C88_again_partial",
    "Oro.Stack.C88_again_flat_partial",
    "Oro.Stack.C88_ends_partial",
    "Oro.Stack.C88_total_partial",
    "Oro.Stack.C88_mislabelled_fails"
   ],
   "note": "The resolver on top of the real readers of documents, specifiers, versions and lockfile entries; node_semver, Url and ssri are the only open parts. Assumed of the documents: an entry says it is the version it is listed as (otherwise the code installs one version's archive with another's requirements: C88_mislabelled_fails); for links, that a name stands for one package throughout; for resolving again, ranges or versions that print to themselves and a sound, unambiguous tree (always so when no name is there twice, C88_again_flat_partial). That the resolve gets done, whatever the order of answers, is C88_total_partial, for documents without cycles (C77 in the documents' terms)."
  },
  {
   "property": "C89",
   "status": "partial",
   "theorems": [
    "Oro.C89_network_partial",
    "Oro.C89_cached_partial",
    "Oro.C89_uncached",
    "Oro.C89_commands",
    "Oro.C89_shared_fails",
    "Oro.C89_spelling_fails",
    "Oro.C89_missing_fails",
    "Oro.C89_private_fails",
    "Oro.C89_uncached_fails"
   ],
   "note": "Proved from an archive with a cache in every link mode, and from the cache where files are copied or cloned (always so for packages with install scripts), for archives whose files are placed apart. Fails with hard links (another package's files change), for commands written with detours (cache only), for private cache files, and for commands without a cache. The chmod of link_bin is C99's; folders' modes are not modelled."
  },
  {
   "property": "C90",
   "status": "partial",
   "theorems": [
    "Oro.Stack.C90_installed_partial",
    "Oro.Stack.C90_first_partial",
    "Oro.Stack.C90_flat_partial",
    "Oro.Stack.C90_store_partial",
    "Oro.Stack.C90_isolated_partial",
    "Oro.Stack.C90_apply_isolated_partial",
    "Oro.Stack.C90_apply_hoisted_partial",
    "Oro.Stack.C90_reapply_isolated_partial",
    "Oro.Stack.C90_reapply_hoisted_partial",
    "Oro.Stack.C90_runs",
    "Oro.Stack.C90_again_hoisted_partial",
    "Oro.Stack.C90_again_isolated_partial"
   ],
   "note": "C88 and C80 together, also for the commands oro apply and oro reapply in a project without a lockfile (they succeed when all that is sought can be had), and a second oro apply when the registry says something else: the spec speaks of JSON documents, archives and Node's lookup only. Isolated linker: every order of responses. Hoisted linker: orders that answer a package's requirements before those of packages inside it, or trees without a name twice; other orders can go wrong (C80_fails, C01_fails). Names are plain and archives hold no node_modules folder; a name stands for one package throughout."
  },
  {
   "property": "C91",
   "status": "partial",
   "theorems": [
    "Oro.Tar.C91_always_partial",
    "Oro.Tar.C91_done_partial",
    "Oro.Tar.C91_exact_partial",
    "Oro.Tar.C91_index_honest",
    "Oro.Tar.C91_cache_partial",
    "Oro.Tar.C91_alone",
    "Oro.Tar.C91_ends",
    "Oro.Tar.C91_no_failure_partial",
    "Oro.Tar.C91_succeeds_partial",
    "Oro.Tar.C91_bundled_fails",
    "Oro.Tar.C91_race_fails",
    "Oro.Tar.C91_evict_fails",
    "Oro.Tar.C91_same_folder_fails"
   ],
   "note": "Files, contents, index and termination are proved for every schedule of any number of extractions into folders laid out as the linkers do (C91_exact_partial), up to collisions of the content hash. With nothing damaged in the cache, sound archives without bundled dependencies and a network that delivers, no extraction fails and each one succeeds (C91_no_failure_partial, C91_succeeds_partial). That an extraction only fails if it would fail alone is false in general: C91_race_fails, C91_evict_fails, C91_bundled_fails. Linking or copying one file, creating one path of folders and eviction are single steps."
  },
  {
   "property": "C92",
   "status": "proved",
   "theorems": [
    "Oro.Tar.C92_housed",
    "Oro.Hoisted.C92_no_failure",
    "Oro.Hoisted.C92_installed",
    "Oro.Hoisted.C92_ends",
    "Oro.Works.C92_works_partial",
    "Oro.Works.C92_works_agreed",
    "Oro.Hoisted.C92_order_fails"
   ],
   "note": "Joins C91 (concurrent extraction through the cache) with C33 and C80: the existence check, the extractions and the reading of manifests interleave arbitrarily, packages beginning in the order of the tree (which the code guarantees; C92_order_fails shows that it matters). Contents are compared up to collisions of the content hash (`pr`). The conclusion that the project works (C92_works_partial) is for responses arriving in an orderly way, or for projects without version conflicts (C92_works_agreed), as in C80."
  },
  {
   "property": "C93",
   "status": "proved",
   "theorems": [
    "Oro.Iso.C93_no_failure",
    "Oro.Iso.C93_links_apart",
    "Oro.Iso.C93_installed",
    "Oro.Iso.C93_ends",
    "Oro.Works.C93_works"
   ],
   "note": "C92 for the isolated linker. Packages may begin in any order, since no package is inside another's folder, and (as in C80) the order of responses while resolving does not matter. Extractions know nothing of symbolic links in the model; C93_links_apart shows that none is where they read or write. Contents are compared up to collisions of the content hash (`pr`)."
  },
  {
   "property": "C94",
   "status": "partial",
   "theorems": [
    "Oro.Tar.C94_private",
    "Oro.Tar.C94_scripts_partial",
    "Oro.Hoisted.C94_hoisted",
    "Oro.Hoisted.C94_hoisted_scripts_partial",
    "Oro.Hoisted.C94_hardlink_fails",
    "Oro.Iso.C94_isolated",
    "Oro.Iso.C94_isolated_scripts_partial"
   ],
   "note": "Without hard links the property is proved for every new file at every moment of every install. For packages with scripts, in every mode, all files but package.json (C26_fails). Missing because the code does otherwise: with hard links the files of packages without scripts are shared with the cache (C94_hardlink_fails)."
  },
  {
   "property": "C95",
   "status": "partial",
   "theorems": [
    "Oro.Hoisted.C95_extracted",
    "Oro.Hoisted.C95_others",
    "Oro.Hoisted.C95_outcomes",
    "Oro.Hoisted.C95_no_failure",
    "Oro.Hoisted.C95_installed",
    "Oro.Hoisted.C95_ends",
    "Oro.Hoisted.C95_pruned",
    "Oro.Hoisted.C95_half_fails",
    "Oro.Iso.C95_outcomes",
    "Oro.Iso.C95_no_clobber"
   ],
   "note": "Hoisted linker: outcomes and effects from any start; completion from what pruning leaves. Missing because the code does otherwise: a half-extracted package, as an interruption leaves it, is taken for the package (C95_half_fails). Isolated linker: outcomes and links from any start; completion of a further install is not proved at the level of file operations."
  },
  {
   "property": "C96",
   "status": "partial",
   "theorems": [
    "Oro.Hoisted.C96_kept",
    "Oro.Hoisted.C96_first",
    "Oro.Hoisted.C96_next_partial",
    "Oro.Hoisted.C96_again",
    "Oro.Hoisted.C96_outside_partial",
    "Oro.Hoisted.C96_linking"
   ],
   "note": "C33, C41, C92 and C95 along a whole history, at the level of file operations. Missing: changes of the tree that pruning overlooks (scoped or nested packages upgraded in place: C33_fails), where the code goes wrong; scripts are among the other events and must leave the packages' files alone (the linking of commands does, at every moment: C96_linking); the isolated linker."
  },
  {
   "property": "C97",
   "status": "proved",
   "theorems": [
    "Oro.Tar.C97_cached",
    "Oro.Hoisted.C97_cached",
    "Oro.Hoisted.C97_offline",
    "Oro.Iso.C97_cached",
    "Oro.Iso.C97_offline",
    "Oro.Hoisted.C97_first",
    "Oro.Hoisted.C97_next",
    "Oro.Tar.C97_unverified_fails"
   ],
   "note": "Both linkers, every schedule. C97_first and C97_next follow the cache along the life of a project (C96). The premises are those of C92/C93: sound archives without bundled dependencies, nothing damaged in the cache. Packages without an integrity (git, addresses) are outside the property: they are cached but never found there (C97_unverified_fails)."
  },
  {
   "property": "C98",
   "status": "partial",
   "theorems": [
    "Oro.Hoisted.C98_first",
    "Oro.Hoisted.C98_next_partial",
    "Oro.Hoisted.C98_goods_partial",
    "Oro.Hoisted.C98_meta",
    "Oro.Hoisted.C98_reapply",
    "Oro.Hoisted.C98_reapply_outside",
    "Oro.Hoisted.C98_cleared_fails",
    "Oro.Hoisted.ExK.cleared_ex"
   ],
   "note": "Hoisted linker, down to file operations: interrupted at any moment and any number of times, with anything else happening in between that leaves node_modules alone. Interrupted attempts are also part of the histories of C96 (Kept.next). Further installs: changes that pruning notices only. Not covered: applying another tree next (false, C34_fails), linking commands and running scripts (C34_scripts_fails). False for a `reapply` interrupted while it clears node_modules (C98_cleared_fails: the meta file is believed and the missing files are never put back); running `reapply` again repairs it (C98_reapply)."
  },
  {
   "property": "C99",
   "status": "partial",
   "theorems": [
    "Oro.Hoisted.C99_executable",
    "Oro.Hoisted.C99_only",
    "Oro.Hoisted.C99_commands",
    "Oro.Hoisted.C99_kept",
    "Oro.Hoisted.C99_first",
    "Oro.Hoisted.C99_lone_partial",
    "Oro.Hoisted.C99_shared_fails",
    "Oro.Iso.C99_isolated",
    "Oro.Iso.C99_isolated_only",
    "Oro.Iso.Ex.C99_isolated_wrong_fails"
   ],
   "note": "Not Windows. Hoisted linker: at every moment and in every interleaving. Isolated linker: after a first install (commands are linked one after the other there); since it looks for the file in the package that is called like the command, it can make a file executable that nobody declares (C99_isolated_wrong_fails). That other files keep their bits is proved where the files of commands have one name each and are not the cache's (copies, clones); with hard links it is false of the code (C99_shared_fails)."
  },
  {
   "property": "C100",
   "status": "partial",
   "theorems": [
    "Oro.Tar.C100_checked",
    "Oro.Tar.C100_thorough_partial",
    "Oro.Tar.C100_same",
    "Oro.Tar.C100_unchecked",
    "Oro.Tar.C100_grows",
    "Oro.Tar.C100_unread_fails",
    "Oro.Tar.C100_early_fails",
    "Oro.Tar.C100_once_fails"
   ],
   "note": "The archive library is a parameter: something that reads when it wants to. Proved for libraries that read the tarball to its end before they end the stream (C100_thorough_partial). False for one that stops at the archive's end mark, as tar readers do: the integrity is then never checked and the stream ends without an error (C100_unread_fails). Entries are handed out before the check in any case (C100_early_fails), and the error is given only once (C100_once_fails)."
  },
  {
   "property": "C101",
   "status": "partial",
   "theorems": [
    "Oro.C101_entries",
    "Oro.C101_started",
    "Oro.C101_same_partial",
    "Oro.C101_ends",
    "Oro.Hoisted.C101_record_partial",
    "Oro.Iso.C46_update_partial",
    "Oro.ExL.C101_moved_on_fails"
   ],
   "note": "Entries: proved for every lockfile and every place to stop. The next install: proved for projects without version conflicts (Agreed, as in C76), with no npm lockfile to fall back to, while the registry still offers the packages of the lockfile; false when a newer version has been published since, because the truncated file is accepted as a lockfile and what it no longer mentions is resolved anew (C101_moved_on_fails). C101_record_partial: the same for the record of what is installed (.orogene-meta.kdl) with the hoisted linker, for changes that the whole record would have let the install notice (as in C33_partial); the isolated linker gets the changes of C46_update_partial right whatever the record says. The KDL text is not modelled: Torn says which documents the beginning of a written text can be read as."
  },
  {
   "property": "C102",
   "status": "partial",
   "theorems": [
    "Oro.Auth.C102_all_or_nothing",
    "Oro.Auth.C102_credentials",
    "Oro.Auth.C102_again",
    "Oro.Auth.C102_logout",
    "Oro.Auth.C102_lost_fails",
    "Oro.Setup.C102_asks_again",
    "Oro.Setup.C102_refusal_fails"
   ],
   "note": "All or nothing: proved for every file and every place to stop. Credentials and trying again: for files and addresses as in C65. False: what was saved before is lost with the rest, for every registry (C102_lost_fails), because the file is emptied before it is written; with the rest goes a refusal of telemetry, which is on by default: at a terminal the user is asked again (C102_asks_again), but runs in CI send reports from then on (C102_refusal_fails). What is left may also be no KDL at all: then every command that reads it fails (as does login itself, C66_file_fails). The KDL text is not modelled: Torn says which documents the beginning of a written text can be read as."
  },
  {
   "property": "C103",
   "status": "partial",
   "theorems": [
    "Oro.PJson.C103_torn",
    "Oro.PJson.C103_add",
    "Oro.PJson.C103_remove",
    "Oro.PJson.C103_reader_exists",
    "Oro.PJson.C103_lost_fails"
   ],
   "note": "What is left is no JSON or the whole new object: proved at the level of the text, for every object, style and place to stop, and for every reader that reads JSON as in C41 and rejects the empty text and texts with open strings or brackets (C103_reader_exists: there is one). False: the old document is lost, because the file is emptied before it is written (C103_lost_fails)."
  }
 ]
}