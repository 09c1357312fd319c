c("C06",P,"C06_proto_terminates C06_newRegistry_terminates","Termination for every import graph, cyclic or not, whose reachable paths are finitely many.")
c("C07",P,"C07_parsed_at_most_once C07_not_reread C07_stable_instance","")
c("C08",P,"C08_idempotent","")
c("C14",P,"C14_failed_load_no_trace","For error returns; panics during loading are C15.")
c("C16",P,"C16_first_hit C16_hard_error C16_not_found C16_later_irrelevant","")
c("C09",P,"C09_import_closure C09_world_closure","")
c("C10",P,"C10_names_sound C10_found_is_declared","")
c("C11",Q,"C11_false C11_partial C11_never_wrong","False for enum values (C11_false): they are registered but their NodeIndex is empty. C11_partial covers all other kinds.")
c("C12",P,"C12_byName_inverts_index C12_enum_values","")
c("C13",P,"C13_order_independent C13_index","")
c("C15",Q,"C15_error_false C15_retry_false C15_false C15_partial","Missing imports panic and leave a half registered file. C15_partial: what does hold.")
c("C17",Q,"C17_false C17_partial C17_never_wrong","False for files that were only imported.")
c("C18",Q,"C18_false C18_partial","False: declarations before the package statement are registered in the root scope.")
c("C20",Q,"C20_false C20_partial C20_branch_partial","False without import checks; C20_partial: adding files that do not declare a competing name changes nothing.")
c("C61",P,"C61_type_from_source","")
c("C19",P,"C19_attributes C19_iteration C19_lookup C19_parent C19_hierarchy C19_file C19_position C19_names C19_byName","")
c("C24",P,"C24_one_node C24_over_time","")
c("C25",P,"C25_different_nodes C25_eq_iff_same_declaration","")
c("C26",Q,"C26_false C26_false_nodeFile C26_partial","False: Proto allocates a fresh *File per call, NodeFile and NodeHierarchy do not. C26_partial: they are wrappers of the same parsed file.")
c("C27",P,"C27_type_stable C27_any_route","")
c("C28",Q,"C28_false C28_partial C28_type_after_panic","False: a panicking Type or wrapping leaves a nil cache entry and the repeated query returns nil.")
c("C57",P,"C57_queries_preserve_meaning C57_byName_preserves_meaning","")
c("C29",P,"C29_file","")
c("C30",P,"C30_message C30_enum C30_oneof C30_service","")
c("C31",Q,"C31_false C31_partial","False: File.Message and File.Type also find extend blocks by the name of what they extend. C31_partial: everything else, and these two for names no extend block of the file extends.")
c("C32",Q,"C32_false C32_partial","False: comments, groups, extension ranges, editions and options not bound at top level panic. C32_partial: all other contents.")
c("C33",P,"C33_lazy C33_no_late_failure C33_prefix","")
c("C34",P,"C34_iteration C34_by_name","The parent of a member of a oneof is the message field of the oneof, which is how the API represents it; for a file it is a *File of the same parsed file (see C26).")
c("C35",P,"C35_hierarchy","For handles of everything written in a file: all wrapper nodes, options, oneofs.")
c("C36",P,"C36_file C36_repeated C36_builtin","Assumes that the parser records the path it was given in positions (Positioned).")
c("C37",Q,"C37_false C37_partial C37_filename_repaired","False: Pos panics on the array value of a repeated option and on map items. C37_partial: every other handle and value.")
c("C38",P,"C38_prints C38_field C38_branch C38_map","")
c("C39",P,"C39_repeated_iff C39_other_fields C39_element","For types that Type returns; after a panic of Type it returns nil (C28).")
c("C40",Q,"C40_false C40_wrong_declaration C40_partial","False: the scoping rule is not applied to map values. C40_partial: names only declared in the outermost scope, and keywords.")
c("C41",P,"C41_input C41_output C41_every_handle","")
c("C42",Q,"C42_false C42_partial","False: TypeName panics on maps. C42_partial: messages, enums, builtins, oneofs and repeated ones of those.")
c("C43",P,"C43_identity C43_unregistered C43_well_known","")
c("C44",P,"C44_reserved C44_every_handle","")
c("C45",Q,"C45_partial C45_outermost_partial C45_binding_unique C45_false","False as stated: options of enum values are interpreted in the outermost scope (C45_false is the counterexample). Proved for every other optionable node, and for enum values when only the outermost scope declares the names.")
c("C46",Q,"C46_partial C46_false","False as stated (a field called deprecated captures the predefined option, C46_false). Proved when no visible declaration has the name.")
c("C47",Q,"C47_partial C47_normal_field_panics C47_false","False as stated (names are compared with the source spelling, parentheses included; normal fields panic). Proved for lookup by source spelling.")
c("C48",Q,"C48_partial C48_everything_panics C48_false","False as stated (Everything and Method.Options use the outermost scope). Proved when only the outermost scope declares the names or they are absolute.")
c("C60",P,"C60_is C60_has_name","For every option handle of every clean history and every name.")
c("C49",Q,"C49_partial C49_sound C49_accepts C49_octal_misread C49_false","False as stated (uint32 and uint64 panic, C49_false; octal literals are misread, C49_octal_misread; hexadecimal literals, repeated enums and messages, maps and oneof members in message literals panic). Proved for the fragment Dialect.supported at any nesting depth; C49_accepts characterises success for all literals.")
c("C50",Q,"C50_partial C50_false","False as stated: a single literal for a repeated option gives the empty array. Proved for array literals.")
c("C51",P,"C51_int C51_uint C51_int_rejects C51_uint_rejects C51_rendering","For all integers and all literal strings.")
c("C59",P,"C59_shows C59_int_arrays","For all values Option.Value returns, of any depth, at any later state.")
c("C52",P,"C52_split C52_other C52_not_option C52_unique C52_valid","For every go_package option handle of every clean history and every source string.")
c("C53",Q,"C53_partial C53_relative_option_panics C53_false","False as stated: GoPackage iterates Everything, which panics on comments between statements and on options written relative to the package. Proved for files of representable elements whose option names only the outermost scope declares.")
c("C54",Q,"C54_partial C54_option_nil C54_false","False as stated: Comment of an option is always nil. Proved for all other nodes.")
c("C55",Q,"C55_partial C55_panics C55_false","False as stated: maps, builtin types and option values panic. Proved for all other nodes, with the exact description, and C55_panics shows this is exactly the rest.")
c("C56",P,"C56_name C56_number C56_optional C56_isExtension C56_statements C56_file C56_package","For every handle of every history.")
c("C21",P,"C21_order_irrelevant C21_result C21_succeeds_iff","For every call sequence and every file system on which stat of the empty path fails.")
c("C22",Q,"C22_partial C22_duplicate_fails C22_false","False: the result of slices.Compact is discarded and its in-place effect leaves empty strings at the end, whose stat fails, so any duplicate root makes Build fail.")
c("C23",Q,"C23_partial C23_no_dotdot C23_location C23_false","False: import paths with .. leave the root. Proved for all paths that do not climb above their start; C23_location says where any path leads. Symbolic links are not modelled.")
c("C58",Q,"C58_partial C58_content C58_same_declaration C58_false","False: wrap is not synchronised (check, build, store), so two goroutines can each get their own node. Proved for any number of goroutines and any sequentially consistent schedule when the node was handed out before; C58_content for all.")
c("C62",P,"C62_include","For every location of protoc.")
c("C63",P,"C63_first_root","For every list of resolvers and every path; failures of stat other than absence are excluded.")
c("C64",P,"C64_outcome C64_panic_names_import C64_new_registry","For every state reached without a panicking load, any set of files closed under imports (cycles allowed) and any failures of resolvers, reads and parses.")
c("C65",P,"C65_imported_file_index","For every history before and after the load.")
c("C66",P,"C66_field C66_branch C66_method","From the source files to the API, for all valid programs. All loaded files count as visible; protoc also checks that the file is imported.")
c("C67",P,"C67_unknown_name","For every history, panics recovered.")
c("C68",P,"C68_map_value","For every map field in histories without a panicking load, distinct full names.")
c("C69",P,"C69_type_name","For every node and every state.")
c("C70",P,"C70_everything C70_nil_later","For every handle that has Everything, in every history.")
c("C71",P,"C71_file_message C71_file_type","For every file handle and name.")
c("C72",P,"C72_pos","Positions of option values that are not arrays: C37_partial.")
c("C73",P,"C73_enum_value_index","In every history, panicking loads included.")
c("C74",P,"C74_first_call C74_later_calls","For every history, panicking calls and loads included.")
c("C75",P,"C75_names C75_index C75_lookup inForce_fqn","The exact form of C18. C75_names in every history; the others when no load panicked; NodeIndex of enum values is C73.")
c("C76",P,"C76_options C76_method_options C76_option_named","The exact form of C45, C47 and C48 (routes Options, OptionNamed and Method.Options). OptionNamed of normal fields always panics: C47_normal_field_panics.")
c("C77",Q,"C77_partial C77_false","False of the code: wrap does not support options, so NodeParent of an option value panics and then returns nil, and the parts of a value have no option pointer (C77_false). C77_partial: NodeFile of the whole value.")
c("C78",P,"C78_value_parent C78_value_hierarchy C78_part_file","The exact form of C77.")
c("C79",P,"C79_terminates C79_budget","For every history, panicking loads and calls included. Termination of Proto is C06.")
c("C80",P,"C80_panics C80_quiet C80_byName C80_well_typed C80_all_occur C80_go_package C80_go_package_occurs","For every history. C80_all_occur: a reachable state in which every entry of every list occurs, noGoPackage of GoPackage aside: that one occurs only for trees no text has (C80_go_package, C80_go_package_occurs).")
c("C81",P,"C81_everything_loop","With C70, which says when a single element can be delivered.")
c("C82",P,"C82_go_package","The exact form of C53.")
c("C83",P,"C83_reach","Includes that no call of the walk fails or changes a tree.")
c("C84",P,"C84_proto_is_new C84_two_protos C26_partial","The exact form of C26; the last clause is C26_partial.")
c("C85",P,"C85_load_order_unobservable","Proved by a bisimulation up to renaming of file positions and wrapper addresses; covers every call of the model.")
c("C86",P,"C86_no_trace C86_no_trace_loading C86_panic_shows C86_type_shows","The last two theorems show that the conditions cannot be dropped.")
c("C87",P,"C87_shared C87_shared_loading","Calls are atomic here; for truly parallel calls see C101.")
c("C88",Q,"C88_partial C88_sound_false C88_complete_false C88_false","Both halves of the promise are refuted by concrete schemas: the exemption is never honoured (a method annotated with it is reported), and a repeated field, map or oneof branch of the status type passes unnoticed. C88_partial: the promise for services without exempt methods and without such fields. Exact behaviour: C89.")
c("C89",P,"C89_report C89_exit_status C89_files_present","The exact form of C88: the report, the exit status and the possible failures for every schema. Program that protoc accepts is the hypothesis Valid on the loaded files.")
c("C90",P,"C90_reference C90_branch","The exact form of C20.")
c("C91",P,"C91_predefined C91_unbound","The exact form of C46. That Options as a whole panics iff a statement is unbound is C76_options.")
c("C92",P,"C92_name C92_reads_back C92_same_name C92_lookup","For every option handle, predefined or custom.")
c("C93",P,"C93_report C93_loading","The program of README.md as modelled in Model/QuickStart.lean (as printed there it imports os and path/filepath without using them, so it does not compile; the unused imports are left out). Lines printed before a panic are not kept.")
c("C94",Q,"C94_false C94_partial C94_error C94_text C94_new_registry C94_panic","The statement as a user expects it is false (C94_false: the resolvers' errors are dropped and a plain 'not found' is returned); C94_error, C94_partial, C94_new_registry and C94_panic give the exact behaviour. The texts of resolver, os and parser errors are parameters.")
c("C95",P,"C95_again C95_readers","For any client, reachable or not. A write of the value that is already there would be invisible in the model; the code has none on these paths (registry_types.go:140, ast_message.go:237 return before the deferred write).")
c("C96",P,"C96_readers C96_progress","Programs in small steps for every call of the model (Small/Code.lean); that a program run alone does what Model/*.lean says is Small/Alone3.lean call_handles, call_answer. Reads between two writes of a goroutine are one step.")
c("C97",P,"C97_locked C97_reachable","For all programs, loads and panicking calls included.")
c("C98",Q,"C98_false C98_wrong_type C98_partial","False: Proto records a file before it indexes it, so another goroutine gets the file too early, finds no type of a field and the nil stays cached (C98_wrong_type: or the wrong type, which stays). (In real Go the same unsynchronised writes may also abort the process; the model interleaves steps.) C98_partial: under a lock. Without a lock: C96 after a warm-up, C101 for all calls that load nothing.")
c("C99",P,"C99_accessors","An accessor looks at the parsed declaration only, and a load does not change declarations that exist. Example: a reader beside a goroutine that loads.")
c("C100",P,"C100_bounded C100_queries","For files with package statements anywhere (FlatFile). Panicking calls included: what they cache (nil) counts. Bounds the maps of the registry, not memory held by handles.")
c("C101",P,"C101_queries","Rely/guarantee over the programs of Small/Code.lean: the caches differ from those at the start only by correct entries. Interleavings of steps; that real Go aborts on concurrent map writes is outside the model (see C98).")
c("C102",Q,"C102_false C102_partial","False: two goroutines that wrap a declaration for the first time both create a node, and the later write wins (C102_false). C102_partial: declarations that had a handle before. With a lock C97, after a warm-up C96.")
c("C103",P,"C103_typed","For every history, panicking calls and loads included.")
c("C104",P,"C104_spelled C104_unique","Package statement before the declarations (WFFile); otherwise see C75.")
c("C105",P,"C105_one_go_package","Assumes, as C82, that descriptor.proto declares FileOptions with a field go_package. Whether a call returns at all is C82 (a panicking call may return later, C70). A load in between can change the binding of option names (C91).")
c("C106",P,"C106_left_behind C106_again","The exact form of C15. For files with one package statement in front of the declarations (WFFile).")
c("C107",P,"C107_disk","C21, C63 and C16 put together, without the condition of C63. A directory or a broken file in an earlier directory hides the file in a later one (example).")
c("C108",P,"C108_one_call C108_frozen C108_one_disk","C108_one_call is (a), C108_frozen is (b); C108_one_disk restates (b) for the whole history: the same state is reached on one disk. Loads that panic are excluded in (b): the file that was missing may appear later, and what the panic left behind (C106) is then not explained by one disk.")
c("C109",P,"C109_printed C109_unloaded C109_same","The program of C93 with its output kept (Model/Output.lean). C109_same: it ends as the program of C93 does, with the same lines. Assumptions as for C93.")
c("C110",P,"C110_printed C110_same","The program of C89 with its output kept (Model/Output.lean). C110_same: it ends as the program of C89 does, with the same lines. Valid programs, as in C89.")
c("C111",P,"C111_walk C111_total","The walking program is a client (Spec/Walk.lean), not part of the repository. Not offered by iterators, and so not met: extend blocks, groups and what is inside them (C83). The recursion has a bound that any sufficiently large number meets.")
c("C112",P,"C112_value C112_definite C112_supported","C112_value needs no assumption on the field of the handle, unlike C49. Files as the parser nests them (NestedFile: what is not a message, extend block, service, enum, oneof or group contains only options). The deviation of the accepted dialect from the language is C49. Float parsing is a parameter.")
c("C113",P,"C113_origin C113_owner","C113_origin: the call in the history that made the handle, with the scope it used; C113_owner: what holds at any later time, while names are unique.")
c("C114",P,"C114_sound C114_returns","The conditions are SoundSchema (Spec/SoundSchema.lean), about places in the loaded files and what names refer to; what is left is Query.misuse. Files as the parser nests them (NestedFile). For Value the condition is on the literal and the field of the handle (the dialect of C112), since the field a handle was bound to may no longer be what the name is bound to after more files are loaded.")
c("C115",P,"C115_field C115_branch C115_method C115_map","The exact form of C66 and, for valid programs, of C05 and C40. One package statement in front of the declarations and no groups (WFPlain). A field whose Type was asked before keeps the answer (C74).")
c("C116",P,"C116_build C116_read","The tree has no symbolic links; what os.Stat says is assumed only for paths that go up (..) at their beginning only (OnTree), which all paths the library computes do; for C116_build the given roots as well. Example: a tree with protoc's include directory and two spellings of a root.")
c("C117",P,"C117_twice","Assumes that whether a file can be parsed and the names it declares do not depend on the import path (positions do).")
c("C118",P,"C118_isolated C118_created C118_own C118_distinct","The model of a process is Model/Process.lean: one heap for the parsed files and wrappers of all registries, separate maps. Proved by a simulation whose renaming of places and addresses changes whenever another registry is used.")
c("C119",P,"C119_files C119_index C119_type_is C119_branch_nil C119_branch_found","For arbitrary programs, including those that use foreign handles everywhere. The examples show a registry that answers a wrong type.")
c("C120",Q,"C120_partial C120_false C120_kinds C120_never","False as stated: options of oneof branches, such as deprecated, cannot be read (C120_false): OneOfBranch has no Options, and no program ever gets a handle of such a statement (C120_never). Proved for all other declarations (C120_partial); C120_kinds: option handles are only ever made for statements of files, messages and extend blocks, fields outside oneofs, map fields, oneofs, enums, enum values, services and rpcs.")
c("C121",Q,"C121_partial C121_false C121_unique C121_inside C121_special C121_hex C121_accepted C121_rejects C121_single","False as stated: hexadecimal integers make Value panic (C121_false), octal ones are read as decimal, since the text goes to strconv.ParseFloat. Proved for decimal numbers with exponents below 100000 or at most 9000 digits before the exponent (C121_partial, C121_inside; C121_unique: the double is determined). Also accepted: hexadecimal numbers with a binary exponent, infinities and nan (C121_hex, C121_special), and nothing else, underscores aside (C121_accepted, C121_rejects). For fields of type float the value is the nearest double too, not a number of single precision (C121_single). strconv.ParseFloat itself is modelled with exact arithmetic (Model/Float.lean); the fast paths of the Go library are not.")
c("C122",P,"C122_text C122_special C122_again","strconv.FormatFloat(v, 'f', -1, 64) is modelled with exact arithmetic (Model/Float.lean), not by the algorithms of the Go library (Ryu), and was compared with another implementation on samples.")
c("C123",P,"C123_known","C106 for any history instead of the first failure. For files with one package statement in front of the declarations (WFFile).")
c("C124",P,"C124_branch C124_field C124_index C124_wrong_type","C124_branch and C124_field make no assumption about the files; C124_index is for files with one package statement in front of the declarations and no name declared twice. C124_wrong_type: a state in which a field, a repeated field and a oneof branch silently have the type of an outer package.")
c("C125",Q,"C125_partial C125_false C125_exact C125_64 C125_silent C125_numbers C125_printed","False: where int has 32 bits, Value panics on signed numbers of more than 32 bits, and unsigned ones are silently reduced modulo 2^32 (C125_false, C125_printed). C125_exact is the exact relation between the platforms for all options and literals; C125_partial: values whose numbers have at most 32 bits. Model/Platform.lean is the code of Model/Options.lean with the size of int as a parameter (C125_64: with 64 bits it is the same function).")
c("C126",Q,"C126_partial C126_false C126_unchecked","False for the types of 32 bits: an int32 option can have the value 4294967301 (C126_false, C126_unchecked: exactly the numbers of 64 bits are accepted). C126_partial: int64, sint64, sfixed64 and fixed64. uint32 and uint64 options always panic (C49).")
c("C127",P,"C127_field C127_branch C127_method C127_map C127_byName C127_says","The registries are compared side by side: they have the same table of names up to place, so every look-up ends alike. The example splits a file in two and reorders it.")
c("C128",P,"C128_new_registry C128_handles C128_answers C128_index C128_text","No assumption about the files. Comments that stand on their own are elements of the file and are not erased: adding one moves the elements behind it. Positions keep the name of the file, which NodeFile uses. C128_answers leaves out NodeIndex of a file handle, which C128_index has.")
