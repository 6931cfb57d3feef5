TIGHT.update({
"t2":["C23_integrity"],"t6":["C23_reads"],"md5":["C44_reduce"],"lp1":["C60_reads_back_partial"],"lp2":["C60_reads_back_partial"],
"lp9":["C60_less"],"lp10":["C60_less"],"lp11":["C60_less"],"lp12":["C60_less"],
"b1":["Bins.C72_commands_partial"],"b2":["Bins.C72_commands_partial"],"b4":["Bins.C72_directories_fails"],"s16":["C73_order"],"s17":["C73_order"],
"sp1":["ScriptPath.C45_folders","ScriptPath.C45_environment"],"sp4":["ScriptPath.C45_inherited_all"],
"h7":["Hoisted.C32_isolated","Hoisted.C33_switch"],"i17":["C73_isolated_pending"],"i18":["C73_isolated_pending"],
"c9":["Cli.C48_add_one","Cli.C48_add","Cli.C48_remove"],"c10":["Cli.C48_add_one","Cli.C48_add"],"u3":["Startup.C50_missing"],
"q3":["Auth.C38_only_there","Auth.C38_source","Auth.C38_sent"],"q16":["Auth.C38_only_there","Auth.C38_source","Auth.C38_sent"],
"z3":["Shim.C49_references","Shim.C49_interpolated"],"z6":["Shim.C49_quotes"],"z11":["Shim.C49_references"],
"f9":["Fetch.C62_git_partial"],"f10":["Fetch.C62_git_partial"],"f11":["Fetch.C63_archive_address_fails"],"f12":["Fetch.C63_fallback_partial"],
"f14":["Fetch.C62_tarball"]})
NOTE.update({"t4":"equivalent: the checker is not used again after success","t21":"equivalent: the parents are always there when it is called",
"f11":"the edit is a repair of the code; the theorem added states the defect"})
TIGHT.update({"lg4":["Login.C66_reasons"],"lg6":["Login.C66_reasons"],"px7":["Proxy.C71_default"],"st7":["Setup.setArg0_named"]})
NOTE.update({"st7":"properties of that node have no effect on later runs; a lemma that names the first argument was added"})
NOTE.update({"ad1":"equivalent: the scope is part of the name that is printed"})
TIGHT.update({"spl6":["Spelled.C78_registry_name"]})
NOTE.update({"spl4":"does not break the claim: comparing versions of registry packages never fails","spl6":"the definition is part of the statement; a theorem that says what it is was added"})
TIGHT.update({"ya12":["Auth.C39_last_property"],"ya21":["Config.C40_switch_words"],"ya23":["Config.C40_switch_words"],"ya24":["Config.C40_table_entries"],
"ya30":["Config.C40_equals"],"ya64":["PJson.C41_cr_fails"],
"yb21":["Docs.C79_inner_fails"],"yb25":["Fetch.C63_address_panics"],"yb27":["Fetch.C63_fallback_partial","Fetch.C63_leftover_fails"],"yb73":["C17_readable"]})
TIGHT.update({"yc7":["View.C83_sizes_fails"],"yc57":["Whole.C87_reported","Whole.C87_fails"],"yc58":["Whole.C34_wiped"],"yc59":["Whole.C34_wiped_isolated"],"yc70":["Scripts.C73_events"]})
NOTE.update({"yc52":"equivalent: a meta file that cannot be read is removed before","yc72":"equivalent: the folder of a command is never empty"})
TIGHT.update({"yd54":["Bins.C72_absolute_fails"],"yd81":["C89_commands"],"yd82":["C89_commands"]})
TIGHT.update({**{k:["Hoisted.C94_hoisted"] for k in ("yg01","yg02","yg03","yg04","yg08")},"yg11":["Hoisted.C95_extracted","Hoisted.C95_outcomes"],"yg13":["Hoisted.C95_extracted","Hoisted.C95_outcomes"],
"yh03":["Iso.C95_no_clobber"],"yh07":["Iso.C95_outcomes"],"yh16":["Iso.C95_no_clobber"]})
NOTE.update({k:"repeated in round yi after tightening: build fails" for k in ("yg01","yg02","yg03","yg04","yg08","yg11","yg13","yh03","yh07","yh16")})
TIGHT.update({"yq8":["Config.C40_spelled"],"yq11":["Docs.C79_name_exact"],"yq12":["Docs.C79_name_exact"],"yq21":["C13_properties"]})
