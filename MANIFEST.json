{
 "claims": [
  {
   "property": "C01",
   "status": "proved",
   "theorems": [
    "Protoast.Props.C01_resolves_innermost",
    "Protoast.Props.C01_fails_iff",
    "Protoast.Props.C01_branch_type",
    "Protoast.Props.C01_field_type"
   ],
   "note": "Resolver: success and failure characterised for every set of names, scope and name; lifted to Type of branches and fields in every reachable state."
  },
  {
   "property": "C02",
   "status": "proved",
   "theorems": [
    "Protoast.Props.C02_absolute_verbatim",
    "Protoast.Props.C02_branch_type"
   ],
   "note": ""
  },
  {
   "property": "C03",
   "status": "proved",
   "theorems": [
    "Protoast.Props.C03_scope_dot_irrelevant",
    "Protoast.Props.C03_file_options"
   ],
   "note": ""
  },
  {
   "property": "C04",
   "status": "proved",
   "theorems": [
    "Protoast.Props.C04_agrees_with_protoc"
   ],
   "note": "protoc's rule is the separate specification Spec/Protoc.lean."
  },
  {
   "property": "C05",
   "status": "partial",
   "theorems": [
    "Protoast.Props.C05_false",
    "Protoast.Props.C05_partial"
   ],
   "note": "False of the code: a field named like its type shadows it and Type panics (C05_false). C05_partial: holds when the closest declaration of the name is a type."
  },
  {
   "property": "C06",
   "status": "proved",
   "theorems": [
    "Protoast.Props.C06_proto_terminates",
    "Protoast.Props.C06_newRegistry_terminates"
   ],
   "note": "Termination for every import graph, cyclic or not, whose reachable paths are finitely many."
  },
  {
   "property": "C07",
   "status": "proved",
   "theorems": [
    "Protoast.Props.C07_parsed_at_most_once",
    "Protoast.Props.C07_not_reread",
    "Protoast.Props.C07_stable_instance"
   ],
   "note": ""
  },
  {
   "property": "C08",
   "status": "proved",
   "theorems": [
    "Protoast.Props.C08_idempotent"
   ],
   "note": ""
  },
  {
   "property": "C09",
   "status": "proved",
   "theorems": [
    "Protoast.Props.C09_import_closure",
    "Protoast.Props.C09_world_closure"
   ],
   "note": ""
  },
  {
   "property": "C10",
   "status": "proved",
   "theorems": [
    "Protoast.Props.C10_names_sound",
    "Protoast.Props.C10_found_is_declared"
   ],
   "note": ""
  },
  {
   "property": "C100",
   "status": "proved",
   "theorems": [
    "Protoast.Props.C100_bounded",
    "Protoast.Props.C100_queries"
   ],
   "note": "For files with package statements anywhere (FlatFile). Panicking calls included: what they cache (nil) counts. Bounds the maps of the registry, not memory held by handles."
  },
  {
   "property": "C101",
   "status": "proved",
   "theorems": [
    "Protoast.Props.C101_queries"
   ],
   "note": "Rely/guarantee over the programs of Small/Code.lean: the caches differ from those at the start only by correct entries. Interleavings of steps; that real Go aborts on concurrent map writes is outside the model (see C98)."
  },
  {
   "property": "C102",
   "status": "partial",
   "theorems": [
    "Protoast.Props.C102_false",
    "Protoast.Props.C102_partial"
   ],
   "note": "False: two goroutines that wrap a declaration for the first time both create a node, and the later write wins (C102_false). C102_partial: declarations that had a handle before. With a lock C97, after a warm-up C96."
  },
  {
   "property": "C103",
   "status": "proved",
   "theorems": [
    "Protoast.Props.C103_typed"
   ],
   "note": "For every history, panicking calls and loads included."
  },
  {
   "property": "C104",
   "status": "proved",
   "theorems": [
    "Protoast.Props.C104_spelled",
    "Protoast.Props.C104_unique"
   ],
   "note": "Package statement before the declarations (WFFile); otherwise see C75."
  },
  {
   "property": "C105",
   "status": "proved",
   "theorems": [
    "Protoast.Props.C105_one_go_package"
   ],
   "note": "Assumes, as C82, that descriptor.proto declares FileOptions with a field go_package. Whether a call returns at all is C82 (a panicking call may return later, C70). A load in between can change the binding of option names (C91)."
  },
  {
   "property": "C106",
   "status": "proved",
   "theorems": [
    "Protoast.Props.C106_left_behind",
    "Protoast.Props.C106_again"
   ],
   "note": "The exact form of C15. For files with one package statement in front of the declarations (WFFile)."
  },
  {
   "property": "C107",
   "status": "proved",
   "theorems": [
    "Protoast.Props.C107_disk"
   ],
   "note": "C21, C63 and C16 put together, without the condition of C63. A directory or a broken file in an earlier directory hides the file in a later one (example)."
  },
  {
   "property": "C108",
   "status": "proved",
   "theorems": [
    "Protoast.Props.C108_one_call",
    "Protoast.Props.C108_frozen",
    "Protoast.Props.C108_one_disk"
   ],
   "note": "C108_one_call is (a), C108_frozen is (b); C108_one_disk restates (b) for the whole history: the same state is reached on one disk. Loads that panic are excluded in (b): the file that was missing may appear later, and what the panic left behind (C106) is then not explained by one disk."
  },
  {
   "property": "C109",
   "status": "proved",
   "theorems": [
    "Protoast.Props.C109_printed",
    "Protoast.Props.C109_unloaded",
    "Protoast.Props.C109_same"
   ],
   "note": "The program of C93 with its output kept (Model/Output.lean). C109_same: it ends as the program of C93 does, with the same lines. Assumptions as for C93."
  },
  {
   "property": "C11",
   "status": "partial",
   "theorems": [
    "Protoast.Props.C11_false",
    "Protoast.Props.C11_partial",
    "Protoast.Props.C11_never_wrong"
   ],
   "note": "False for enum values (C11_false): they are registered but their NodeIndex is empty. C11_partial covers all other kinds."
  },
  {
   "property": "C110",
   "status": "proved",
   "theorems": [
    "Protoast.Props.C110_printed",
    "Protoast.Props.C110_same"
   ],
   "note": "The program of C89 with its output kept (Model/Output.lean). C110_same: it ends as the program of C89 does, with the same lines. Valid programs, as in C89."
  },
  {
   "property": "C111",
   "status": "proved",
   "theorems": [
    "Protoast.Props.C111_walk",
    "Protoast.Props.C111_total"
   ],
   "note": "The walking program is a client (Spec/Walk.lean), not part of the repository. Not offered by iterators, and so not met: extend blocks, groups and what is inside them (C83). The recursion has a bound that any sufficiently large number meets."
  },
  {
   "property": "C112",
   "status": "proved",
   "theorems": [
    "Protoast.Props.C112_value",
    "Protoast.Props.C112_definite",
    "Protoast.Props.C112_supported"
   ],
   "note": "C112_value needs no assumption on the field of the handle, unlike C49. Files as the parser nests them (NestedFile: what is not a message, extend block, service, enum, oneof or group contains only options). The deviation of the accepted dialect from the language is C49. Float parsing is a parameter."
  },
  {
   "property": "C113",
   "status": "proved",
   "theorems": [
    "Protoast.Props.C113_origin",
    "Protoast.Props.C113_owner"
   ],
   "note": "C113_origin: the call in the history that made the handle, with the scope it used; C113_owner: what holds at any later time, while names are unique."
  },
  {
   "property": "C114",
   "status": "proved",
   "theorems": [
    "Protoast.Props.C114_sound",
    "Protoast.Props.C114_returns"
   ],
   "note": "The conditions are SoundSchema (Spec/SoundSchema.lean), about places in the loaded files and what names refer to; what is left is Query.misuse. Files as the parser nests them (NestedFile). For Value the condition is on the literal and the field of the handle (the dialect of C112), since the field a handle was bound to may no longer be what the name is bound to after more files are loaded."
  },
  {
   "property": "C115",
   "status": "proved",
   "theorems": [
    "Protoast.Props.C115_field",
    "Protoast.Props.C115_branch",
    "Protoast.Props.C115_method",
    "Protoast.Props.C115_map"
   ],
   "note": "The exact form of C66 and, for valid programs, of C05 and C40. One package statement in front of the declarations and no groups (WFPlain). A field whose Type was asked before keeps the answer (C74)."
  },
  {
   "property": "C116",
   "status": "proved",
   "theorems": [
    "Protoast.Props.C116_build",
    "Protoast.Props.C116_read"
   ],
   "note": "The tree has no symbolic links; what os.Stat says is assumed only for paths that go up (..) at their beginning only (OnTree), which all paths the library computes do; for C116_build the given roots as well. Example: a tree with protoc's include directory and two spellings of a root."
  },
  {
   "property": "C117",
   "status": "proved",
   "theorems": [
    "Protoast.Props.C117_twice"
   ],
   "note": "Assumes that whether a file can be parsed and the names it declares do not depend on the import path (positions do)."
  },
  {
   "property": "C118",
   "status": "proved",
   "theorems": [
    "Protoast.Props.C118_isolated",
    "Protoast.Props.C118_created",
    "Protoast.Props.C118_own",
    "Protoast.Props.C118_distinct"
   ],
   "note": "The model of a process is Model/Process.lean: one heap for the parsed files and wrappers of all registries, separate maps. Proved by a simulation whose renaming of places and addresses changes whenever another registry is used."
  },
  {
   "property": "C119",
   "status": "proved",
   "theorems": [
    "Protoast.Props.C119_files",
    "Protoast.Props.C119_index",
    "Protoast.Props.C119_type_is",
    "Protoast.Props.C119_branch_nil",
    "Protoast.Props.C119_branch_found"
   ],
   "note": "For arbitrary programs, including those that use foreign handles everywhere. The examples show a registry that answers a wrong type."
  },
  {
   "property": "C12",
   "status": "proved",
   "theorems": [
    "Protoast.Props.C12_byName_inverts_index",
    "Protoast.Props.C12_enum_values"
   ],
   "note": ""
  },
  {
   "property": "C120",
   "status": "partial",
   "theorems": [
    "Protoast.Props.C120_partial",
    "Protoast.Props.C120_false",
    "Protoast.Props.C120_kinds",
    "Protoast.Props.C120_never"
   ],
   "note": "False as stated: options of oneof branches, such as deprecated, cannot be read (C120_false): OneOfBranch has no Options, and no program ever gets a handle of such a statement (C120_never). Proved for all other declarations (C120_partial); C120_kinds: option handles are only ever made for statements of files, messages and extend blocks, fields outside oneofs, map fields, oneofs, enums, enum values, services and rpcs."
  },
  {
   "property": "C121",
   "status": "partial",
   "theorems": [
    "Protoast.Props.C121_partial",
    "Protoast.Props.C121_false",
    "Protoast.Props.C121_unique",
    "Protoast.Props.C121_inside",
    "Protoast.Props.C121_special",
    "Protoast.Props.C121_hex",
    "Protoast.Props.C121_accepted",
    "Protoast.Props.C121_rejects",
    "Protoast.Props.C121_single"
   ],
   "note": "False as stated: hexadecimal integers make Value panic (C121_false), octal ones are read as decimal, since the text goes to strconv.ParseFloat. Proved for decimal numbers with exponents below 100000 or at most 9000 digits before the exponent (C121_partial, C121_inside; C121_unique: the double is determined). Also accepted: hexadecimal numbers with a binary exponent, infinities and nan (C121_hex, C121_special), and nothing else, underscores aside (C121_accepted, C121_rejects). For fields of type float the value is the nearest double too, not a number of single precision (C121_single). strconv.ParseFloat itself is modelled with exact arithmetic (Model/Float.lean); the fast paths of the Go library are not."
  },
  {
   "property": "C122",
   "status": "proved",
   "theorems": [
    "Protoast.Props.C122_text",
    "Protoast.Props.C122_special",
    "Protoast.Props.C122_again"
   ],
   "note": "strconv.FormatFloat(v, 'f', -1, 64) is modelled with exact arithmetic (Model/Float.lean), not by the algorithms of the Go library (Ryu), and was compared with another implementation on samples."
  },
  {
   "property": "C123",
   "status": "proved",
   "theorems": [
    "Protoast.Props.C123_known"
   ],
   "note": "C106 for any history instead of the first failure. For files with one package statement in front of the declarations (WFFile)."
  },
  {
   "property": "C124",
   "status": "proved",
   "theorems": [
    "Protoast.Props.C124_branch",
    "Protoast.Props.C124_field",
    "Protoast.Props.C124_index",
    "Protoast.Props.C124_wrong_type"
   ],
   "note": "C124_branch and C124_field make no assumption about the files; C124_index is for files with one package statement in front of the declarations and no name declared twice. C124_wrong_type: a state in which a field, a repeated field and a oneof branch silently have the type of an outer package."
  },
  {
   "property": "C125",
   "status": "partial",
   "theorems": [
    "Protoast.Props.C125_partial",
    "Protoast.Props.C125_false",
    "Protoast.Props.C125_exact",
    "Protoast.Props.C125_64",
    "Protoast.Props.C125_silent",
    "Protoast.Props.C125_numbers",
    "Protoast.Props.C125_printed"
   ],
   "note": "False: where int has 32 bits, Value panics on signed numbers of more than 32 bits, and unsigned ones are silently reduced modulo 2^32 (C125_false, C125_printed). C125_exact is the exact relation between the platforms for all options and literals; C125_partial: values whose numbers have at most 32 bits. Model/Platform.lean is the code of Model/Options.lean with the size of int as a parameter (C125_64: with 64 bits it is the same function)."
  },
  {
   "property": "C126",
   "status": "partial",
   "theorems": [
    "Protoast.Props.C126_partial",
    "Protoast.Props.C126_false",
    "Protoast.Props.C126_unchecked"
   ],
   "note": "False for the types of 32 bits: an int32 option can have the value 4294967301 (C126_false, C126_unchecked: exactly the numbers of 64 bits are accepted). C126_partial: int64, sint64, sfixed64 and fixed64. uint32 and uint64 options always panic (C49)."
  },
  {
   "property": "C127",
   "status": "proved",
   "theorems": [
    "Protoast.Props.C127_field",
    "Protoast.Props.C127_branch",
    "Protoast.Props.C127_method",
    "Protoast.Props.C127_map",
    "Protoast.Props.C127_byName",
    "Protoast.Props.C127_says"
   ],
   "note": "The registries are compared side by side: they have the same table of names up to place, so every look-up ends alike. The example splits a file in two and reorders it."
  },
  {
   "property": "C128",
   "status": "proved",
   "theorems": [
    "Protoast.Props.C128_new_registry",
    "Protoast.Props.C128_handles",
    "Protoast.Props.C128_answers",
    "Protoast.Props.C128_index",
    "Protoast.Props.C128_text"
   ],
   "note": "No assumption about the files. Comments that stand on their own are elements of the file and are not erased: adding one moves the elements behind it. Positions keep the name of the file, which NodeFile uses. C128_answers leaves out NodeIndex of a file handle, which C128_index has."
  },
  {
   "property": "C13",
   "status": "proved",
   "theorems": [
    "Protoast.Props.C13_order_independent",
    "Protoast.Props.C13_index"
   ],
   "note": ""
  },
  {
   "property": "C14",
   "status": "proved",
   "theorems": [
    "Protoast.Props.C14_failed_load_no_trace"
   ],
   "note": "For error returns; panics during loading are C15."
  },
  {
   "property": "C15",
   "status": "partial",
   "theorems": [
    "Protoast.Props.C15_error_false",
    "Protoast.Props.C15_retry_false",
    "Protoast.Props.C15_false",
    "Protoast.Props.C15_partial"
   ],
   "note": "Missing imports panic and leave a half registered file. C15_partial: what does hold."
  },
  {
   "property": "C16",
   "status": "proved",
   "theorems": [
    "Protoast.Props.C16_first_hit",
    "Protoast.Props.C16_hard_error",
    "Protoast.Props.C16_not_found",
    "Protoast.Props.C16_later_irrelevant"
   ],
   "note": ""
  },
  {
   "property": "C17",
   "status": "partial",
   "theorems": [
    "Protoast.Props.C17_false",
    "Protoast.Props.C17_partial",
    "Protoast.Props.C17_never_wrong"
   ],
   "note": "False for files that were only imported."
  },
  {
   "property": "C18",
   "status": "partial",
   "theorems": [
    "Protoast.Props.C18_false",
    "Protoast.Props.C18_partial"
   ],
   "note": "False: declarations before the package statement are registered in the root scope."
  },
  {
   "property": "C19",
   "status": "proved",
   "theorems": [
    "Protoast.Props.C19_attributes",
    "Protoast.Props.C19_iteration",
    "Protoast.Props.C19_lookup",
    "Protoast.Props.C19_parent",
    "Protoast.Props.C19_hierarchy",
    "Protoast.Props.C19_file",
    "Protoast.Props.C19_position",
    "Protoast.Props.C19_names",
    "Protoast.Props.C19_byName"
   ],
   "note": ""
  },
  {
   "property": "C20",
   "status": "partial",
   "theorems": [
    "Protoast.Props.C20_false",
    "Protoast.Props.C20_partial",
    "Protoast.Props.C20_branch_partial"
   ],
   "note": "False without import checks; C20_partial: adding files that do not declare a competing name changes nothing."
  },
  {
   "property": "C21",
   "status": "proved",
   "theorems": [
    "Protoast.Props.C21_order_irrelevant",
    "Protoast.Props.C21_result",
    "Protoast.Props.C21_succeeds_iff"
   ],
   "note": "For every call sequence and every file system on which stat of the empty path fails."
  },
  {
   "property": "C22",
   "status": "partial",
   "theorems": [
    "Protoast.Props.C22_partial",
    "Protoast.Props.C22_duplicate_fails",
    "Protoast.Props.C22_false"
   ],
   "note": "False: the result of slices.Compact is discarded and its in-place effect leaves empty strings at the end, whose stat fails, so any duplicate root makes Build fail."
  },
  {
   "property": "C23",
   "status": "partial",
   "theorems": [
    "Protoast.Props.C23_partial",
    "Protoast.Props.C23_no_dotdot",
    "Protoast.Props.C23_location",
    "Protoast.Props.C23_false"
   ],
   "note": "False: import paths with .. leave the root. Proved for all paths that do not climb above their start; C23_location says where any path leads. Symbolic links are not modelled."
  },
  {
   "property": "C24",
   "status": "proved",
   "theorems": [
    "Protoast.Props.C24_one_node",
    "Protoast.Props.C24_over_time"
   ],
   "note": ""
  },
  {
   "property": "C25",
   "status": "proved",
   "theorems": [
    "Protoast.Props.C25_different_nodes",
    "Protoast.Props.C25_eq_iff_same_declaration"
   ],
   "note": ""
  },
  {
   "property": "C26",
   "status": "partial",
   "theorems": [
    "Protoast.Props.C26_false",
    "Protoast.Props.C26_false_nodeFile",
    "Protoast.Props.C26_partial"
   ],
   "note": "False: Proto allocates a fresh *File per call, NodeFile and NodeHierarchy do not. C26_partial: they are wrappers of the same parsed file."
  },
  {
   "property": "C27",
   "status": "proved",
   "theorems": [
    "Protoast.Props.C27_type_stable",
    "Protoast.Props.C27_any_route"
   ],
   "note": ""
  },
  {
   "property": "C28",
   "status": "partial",
   "theorems": [
    "Protoast.Props.C28_false",
    "Protoast.Props.C28_partial",
    "Protoast.Props.C28_type_after_panic"
   ],
   "note": "False: a panicking Type or wrapping leaves a nil cache entry and the repeated query returns nil."
  },
  {
   "property": "C29",
   "status": "proved",
   "theorems": [
    "Protoast.Props.C29_file"
   ],
   "note": ""
  },
  {
   "property": "C30",
   "status": "proved",
   "theorems": [
    "Protoast.Props.C30_message",
    "Protoast.Props.C30_enum",
    "Protoast.Props.C30_oneof",
    "Protoast.Props.C30_service"
   ],
   "note": ""
  },
  {
   "property": "C31",
   "status": "partial",
   "theorems": [
    "Protoast.Props.C31_false",
    "Protoast.Props.C31_partial"
   ],
   "note": "False: File.Message and File.Type also find extend blocks by the name of what they extend. C31_partial: everything else, and these two for names no extend block of the file extends."
  },
  {
   "property": "C32",
   "status": "partial",
   "theorems": [
    "Protoast.Props.C32_false",
    "Protoast.Props.C32_partial"
   ],
   "note": "False: comments, groups, extension ranges, editions and options not bound at top level panic. C32_partial: all other contents."
  },
  {
   "property": "C33",
   "status": "proved",
   "theorems": [
    "Protoast.Props.C33_lazy",
    "Protoast.Props.C33_no_late_failure",
    "Protoast.Props.C33_prefix"
   ],
   "note": ""
  },
  {
   "property": "C34",
   "status": "proved",
   "theorems": [
    "Protoast.Props.C34_iteration",
    "Protoast.Props.C34_by_name"
   ],
   "note": "The parent of a member of a oneof is the message field of the oneof, which is how the API represents it; for a file it is a *File of the same parsed file (see C26)."
  },
  {
   "property": "C35",
   "status": "proved",
   "theorems": [
    "Protoast.Props.C35_hierarchy"
   ],
   "note": "For handles of everything written in a file: all wrapper nodes, options, oneofs."
  },
  {
   "property": "C36",
   "status": "proved",
   "theorems": [
    "Protoast.Props.C36_file",
    "Protoast.Props.C36_repeated",
    "Protoast.Props.C36_builtin"
   ],
   "note": "Assumes that the parser records the path it was given in positions (Positioned)."
  },
  {
   "property": "C37",
   "status": "partial",
   "theorems": [
    "Protoast.Props.C37_false",
    "Protoast.Props.C37_partial",
    "Protoast.Props.C37_filename_repaired"
   ],
   "note": "False: Pos panics on the array value of a repeated option and on map items. C37_partial: every other handle and value."
  },
  {
   "property": "C38",
   "status": "proved",
   "theorems": [
    "Protoast.Props.C38_prints",
    "Protoast.Props.C38_field",
    "Protoast.Props.C38_branch",
    "Protoast.Props.C38_map"
   ],
   "note": ""
  },
  {
   "property": "C39",
   "status": "proved",
   "theorems": [
    "Protoast.Props.C39_repeated_iff",
    "Protoast.Props.C39_other_fields",
    "Protoast.Props.C39_element"
   ],
   "note": "For types that Type returns; after a panic of Type it returns nil (C28)."
  },
  {
   "property": "C40",
   "status": "partial",
   "theorems": [
    "Protoast.Props.C40_false",
    "Protoast.Props.C40_wrong_declaration",
    "Protoast.Props.C40_partial"
   ],
   "note": "False: the scoping rule is not applied to map values. C40_partial: names only declared in the outermost scope, and keywords."
  },
  {
   "property": "C41",
   "status": "proved",
   "theorems": [
    "Protoast.Props.C41_input",
    "Protoast.Props.C41_output",
    "Protoast.Props.C41_every_handle"
   ],
   "note": ""
  },
  {
   "property": "C42",
   "status": "partial",
   "theorems": [
    "Protoast.Props.C42_false",
    "Protoast.Props.C42_partial"
   ],
   "note": "False: TypeName panics on maps. C42_partial: messages, enums, builtins, oneofs and repeated ones of those."
  },
  {
   "property": "C43",
   "status": "proved",
   "theorems": [
    "Protoast.Props.C43_identity",
    "Protoast.Props.C43_unregistered",
    "Protoast.Props.C43_well_known"
   ],
   "note": ""
  },
  {
   "property": "C44",
   "status": "proved",
   "theorems": [
    "Protoast.Props.C44_reserved",
    "Protoast.Props.C44_every_handle"
   ],
   "note": ""
  },
  {
   "property": "C45",
   "status": "partial",
   "theorems": [
    "Protoast.Props.C45_partial",
    "Protoast.Props.C45_outermost_partial",
    "Protoast.Props.C45_binding_unique",
    "Protoast.Props.C45_false"
   ],
   "note": "False as stated: options of enum values are interpreted in the outermost scope (C45_false is the counterexample). Proved for every other optionable node, and for enum values when only the outermost scope declares the names."
  },
  {
   "property": "C46",
   "status": "partial",
   "theorems": [
    "Protoast.Props.C46_partial",
    "Protoast.Props.C46_false"
   ],
   "note": "False as stated (a field called deprecated captures the predefined option, C46_false). Proved when no visible declaration has the name."
  },
  {
   "property": "C47",
   "status": "partial",
   "theorems": [
    "Protoast.Props.C47_partial",
    "Protoast.Props.C47_normal_field_panics",
    "Protoast.Props.C47_false"
   ],
   "note": "False as stated (names are compared with the source spelling, parentheses included; normal fields panic). Proved for lookup by source spelling."
  },
  {
   "property": "C48",
   "status": "partial",
   "theorems": [
    "Protoast.Props.C48_partial",
    "Protoast.Props.C48_everything_panics",
    "Protoast.Props.C48_false"
   ],
   "note": "False as stated (Everything and Method.Options use the outermost scope). Proved when only the outermost scope declares the names or they are absolute."
  },
  {
   "property": "C49",
   "status": "partial",
   "theorems": [
    "Protoast.Props.C49_partial",
    "Protoast.Props.C49_sound",
    "Protoast.Props.C49_accepts",
    "Protoast.Props.C49_octal_misread",
    "Protoast.Props.C49_false"
   ],
   "note": "False as stated (uint32 and uint64 panic, C49_false; octal literals are misread, C49_octal_misread; hexadecimal literals, repeated enums and messages, maps and oneof members in message literals panic). Proved for the fragment Dialect.supported at any nesting depth; C49_accepts characterises success for all literals."
  },
  {
   "property": "C50",
   "status": "partial",
   "theorems": [
    "Protoast.Props.C50_partial",
    "Protoast.Props.C50_false"
   ],
   "note": "False as stated: a single literal for a repeated option gives the empty array. Proved for array literals."
  },
  {
   "property": "C51",
   "status": "proved",
   "theorems": [
    "Protoast.Props.C51_int",
    "Protoast.Props.C51_uint",
    "Protoast.Props.C51_int_rejects",
    "Protoast.Props.C51_uint_rejects",
    "Protoast.Props.C51_rendering"
   ],
   "note": "For all integers and all literal strings."
  },
  {
   "property": "C52",
   "status": "proved",
   "theorems": [
    "Protoast.Props.C52_split",
    "Protoast.Props.C52_other",
    "Protoast.Props.C52_not_option",
    "Protoast.Props.C52_unique",
    "Protoast.Props.C52_valid"
   ],
   "note": "For every go_package option handle of every clean history and every source string."
  },
  {
   "property": "C53",
   "status": "partial",
   "theorems": [
    "Protoast.Props.C53_partial",
    "Protoast.Props.C53_relative_option_panics",
    "Protoast.Props.C53_false"
   ],
   "note": "False as stated: GoPackage iterates Everything, which panics on comments between statements and on options written relative to the package. Proved for files of representable elements whose option names only the outermost scope declares."
  },
  {
   "property": "C54",
   "status": "partial",
   "theorems": [
    "Protoast.Props.C54_partial",
    "Protoast.Props.C54_option_nil",
    "Protoast.Props.C54_false"
   ],
   "note": "False as stated: Comment of an option is always nil. Proved for all other nodes."
  },
  {
   "property": "C55",
   "status": "partial",
   "theorems": [
    "Protoast.Props.C55_partial",
    "Protoast.Props.C55_panics",
    "Protoast.Props.C55_false"
   ],
   "note": "False as stated: maps, builtin types and option values panic. Proved for all other nodes, with the exact description, and C55_panics shows this is exactly the rest."
  },
  {
   "property": "C56",
   "status": "proved",
   "theorems": [
    "Protoast.Props.C56_name",
    "Protoast.Props.C56_number",
    "Protoast.Props.C56_optional",
    "Protoast.Props.C56_isExtension",
    "Protoast.Props.C56_statements",
    "Protoast.Props.C56_file",
    "Protoast.Props.C56_package"
   ],
   "note": "For every handle of every history."
  },
  {
   "property": "C57",
   "status": "proved",
   "theorems": [
    "Protoast.Props.C57_queries_preserve_meaning",
    "Protoast.Props.C57_byName_preserves_meaning"
   ],
   "note": ""
  },
  {
   "property": "C58",
   "status": "partial",
   "theorems": [
    "Protoast.Props.C58_partial",
    "Protoast.Props.C58_content",
    "Protoast.Props.C58_same_declaration",
    "Protoast.Props.C58_false"
   ],
   "note": "False: wrap is not synchronised (check, build, store), so two goroutines can each get their own node. Proved for any number of goroutines and any sequentially consistent schedule when the node was handed out before; C58_content for all."
  },
  {
   "property": "C59",
   "status": "proved",
   "theorems": [
    "Protoast.Props.C59_shows",
    "Protoast.Props.C59_int_arrays"
   ],
   "note": "For all values Option.Value returns, of any depth, at any later state."
  },
  {
   "property": "C60",
   "status": "proved",
   "theorems": [
    "Protoast.Props.C60_is",
    "Protoast.Props.C60_has_name"
   ],
   "note": "For every option handle of every clean history and every name."
  },
  {
   "property": "C61",
   "status": "proved",
   "theorems": [
    "Protoast.Props.C61_type_from_source"
   ],
   "note": ""
  },
  {
   "property": "C62",
   "status": "proved",
   "theorems": [
    "Protoast.Props.C62_include"
   ],
   "note": "For every location of protoc."
  },
  {
   "property": "C63",
   "status": "proved",
   "theorems": [
    "Protoast.Props.C63_first_root"
   ],
   "note": "For every list of resolvers and every path; failures of stat other than absence are excluded."
  },
  {
   "property": "C64",
   "status": "proved",
   "theorems": [
    "Protoast.Props.C64_outcome",
    "Protoast.Props.C64_panic_names_import",
    "Protoast.Props.C64_new_registry"
   ],
   "note": "For every state reached without a panicking load, any set of files closed under imports (cycles allowed) and any failures of resolvers, reads and parses."
  },
  {
   "property": "C65",
   "status": "proved",
   "theorems": [
    "Protoast.Props.C65_imported_file_index"
   ],
   "note": "For every history before and after the load."
  },
  {
   "property": "C66",
   "status": "proved",
   "theorems": [
    "Protoast.Props.C66_field",
    "Protoast.Props.C66_branch",
    "Protoast.Props.C66_method"
   ],
   "note": "From the source files to the API, for all valid programs. All loaded files count as visible; protoc also checks that the file is imported."
  },
  {
   "property": "C67",
   "status": "proved",
   "theorems": [
    "Protoast.Props.C67_unknown_name"
   ],
   "note": "For every history, panics recovered."
  },
  {
   "property": "C68",
   "status": "proved",
   "theorems": [
    "Protoast.Props.C68_map_value"
   ],
   "note": "For every map field in histories without a panicking load, distinct full names."
  },
  {
   "property": "C69",
   "status": "proved",
   "theorems": [
    "Protoast.Props.C69_type_name"
   ],
   "note": "For every node and every state."
  },
  {
   "property": "C70",
   "status": "proved",
   "theorems": [
    "Protoast.Props.C70_everything",
    "Protoast.Props.C70_nil_later"
   ],
   "note": "For every handle that has Everything, in every history."
  },
  {
   "property": "C71",
   "status": "proved",
   "theorems": [
    "Protoast.Props.C71_file_message",
    "Protoast.Props.C71_file_type"
   ],
   "note": "For every file handle and name."
  },
  {
   "property": "C72",
   "status": "proved",
   "theorems": [
    "Protoast.Props.C72_pos"
   ],
   "note": "Positions of option values that are not arrays: C37_partial."
  },
  {
   "property": "C73",
   "status": "proved",
   "theorems": [
    "Protoast.Props.C73_enum_value_index"
   ],
   "note": "In every history, panicking loads included."
  },
  {
   "property": "C74",
   "status": "proved",
   "theorems": [
    "Protoast.Props.C74_first_call",
    "Protoast.Props.C74_later_calls"
   ],
   "note": "For every history, panicking calls and loads included."
  },
  {
   "property": "C75",
   "status": "proved",
   "theorems": [
    "Protoast.Props.C75_names",
    "Protoast.Props.C75_index",
    "Protoast.Props.C75_lookup",
    "Protoast.Props.inForce_fqn"
   ],
   "note": "The exact form of C18. C75_names in every history; the others when no load panicked; NodeIndex of enum values is C73."
  },
  {
   "property": "C76",
   "status": "proved",
   "theorems": [
    "Protoast.Props.C76_options",
    "Protoast.Props.C76_method_options",
    "Protoast.Props.C76_option_named"
   ],
   "note": "The exact form of C45, C47 and C48 (routes Options, OptionNamed and Method.Options). OptionNamed of normal fields always panics: C47_normal_field_panics."
  },
  {
   "property": "C77",
   "status": "partial",
   "theorems": [
    "Protoast.Props.C77_partial",
    "Protoast.Props.C77_false"
   ],
   "note": "False of the code: wrap does not support options, so NodeParent of an option value panics and then returns nil, and the parts of a value have no option pointer (C77_false). C77_partial: NodeFile of the whole value."
  },
  {
   "property": "C78",
   "status": "proved",
   "theorems": [
    "Protoast.Props.C78_value_parent",
    "Protoast.Props.C78_value_hierarchy",
    "Protoast.Props.C78_part_file"
   ],
   "note": "The exact form of C77."
  },
  {
   "property": "C79",
   "status": "proved",
   "theorems": [
    "Protoast.Props.C79_terminates",
    "Protoast.Props.C79_budget"
   ],
   "note": "For every history, panicking loads and calls included. Termination of Proto is C06."
  },
  {
   "property": "C80",
   "status": "proved",
   "theorems": [
    "Protoast.Props.C80_panics",
    "Protoast.Props.C80_quiet",
    "Protoast.Props.C80_byName",
    "Protoast.Props.C80_well_typed",
    "Protoast.Props.C80_all_occur",
    "Protoast.Props.C80_go_package",
    "Protoast.Props.C80_go_package_occurs"
   ],
   "note": "For every history. C80_all_occur: a reachable state in which every entry of every list occurs, noGoPackage of GoPackage aside: that one occurs only for trees no text has (C80_go_package, C80_go_package_occurs)."
  },
  {
   "property": "C81",
   "status": "proved",
   "theorems": [
    "Protoast.Props.C81_everything_loop"
   ],
   "note": "With C70, which says when a single element can be delivered."
  },
  {
   "property": "C82",
   "status": "proved",
   "theorems": [
    "Protoast.Props.C82_go_package"
   ],
   "note": "The exact form of C53."
  },
  {
   "property": "C83",
   "status": "proved",
   "theorems": [
    "Protoast.Props.C83_reach"
   ],
   "note": "Includes that no call of the walk fails or changes a tree."
  },
  {
   "property": "C84",
   "status": "proved",
   "theorems": [
    "Protoast.Props.C84_proto_is_new",
    "Protoast.Props.C84_two_protos",
    "Protoast.Props.C26_partial"
   ],
   "note": "The exact form of C26; the last clause is C26_partial."
  },
  {
   "property": "C85",
   "status": "proved",
   "theorems": [
    "Protoast.Props.C85_load_order_unobservable"
   ],
   "note": "Proved by a bisimulation up to renaming of file positions and wrapper addresses; covers every call of the model."
  },
  {
   "property": "C86",
   "status": "proved",
   "theorems": [
    "Protoast.Props.C86_no_trace",
    "Protoast.Props.C86_no_trace_loading",
    "Protoast.Props.C86_panic_shows",
    "Protoast.Props.C86_type_shows"
   ],
   "note": "The last two theorems show that the conditions cannot be dropped."
  },
  {
   "property": "C87",
   "status": "proved",
   "theorems": [
    "Protoast.Props.C87_shared",
    "Protoast.Props.C87_shared_loading"
   ],
   "note": "Calls are atomic here; for truly parallel calls see C101."
  },
  {
   "property": "C88",
   "status": "partial",
   "theorems": [
    "Protoast.Props.C88_partial",
    "Protoast.Props.C88_sound_false",
    "Protoast.Props.C88_complete_false",
    "Protoast.Props.C88_false"
   ],
   "note": "Both halves of the promise are refuted by concrete schemas: the exemption is never honoured (a method annotated with it is reported), and a repeated field, map or oneof branch of the status type passes unnoticed. C88_partial: the promise for services without exempt methods and without such fields. Exact behaviour: C89."
  },
  {
   "property": "C89",
   "status": "proved",
   "theorems": [
    "Protoast.Props.C89_report",
    "Protoast.Props.C89_exit_status",
    "Protoast.Props.C89_files_present"
   ],
   "note": "The exact form of C88: the report, the exit status and the possible failures for every schema. Program that protoc accepts is the hypothesis Valid on the loaded files."
  },
  {
   "property": "C90",
   "status": "proved",
   "theorems": [
    "Protoast.Props.C90_reference",
    "Protoast.Props.C90_branch"
   ],
   "note": "The exact form of C20."
  },
  {
   "property": "C91",
   "status": "proved",
   "theorems": [
    "Protoast.Props.C91_predefined",
    "Protoast.Props.C91_unbound"
   ],
   "note": "The exact form of C46. That Options as a whole panics iff a statement is unbound is C76_options."
  },
  {
   "property": "C92",
   "status": "proved",
   "theorems": [
    "Protoast.Props.C92_name",
    "Protoast.Props.C92_reads_back",
    "Protoast.Props.C92_same_name",
    "Protoast.Props.C92_lookup"
   ],
   "note": "For every option handle, predefined or custom."
  },
  {
   "property": "C93",
   "status": "proved",
   "theorems": [
    "Protoast.Props.C93_report",
    "Protoast.Props.C93_loading"
   ],
   "note": "The program of README.md as modelled in Model/QuickStart.lean (as printed there it imports os and path/filepath without using them, so it does not compile; the unused imports are left out). Lines printed before a panic are not kept."
  },
  {
   "property": "C94",
   "status": "partial",
   "theorems": [
    "Protoast.Props.C94_false",
    "Protoast.Props.C94_partial",
    "Protoast.Props.C94_error",
    "Protoast.Props.C94_text",
    "Protoast.Props.C94_new_registry",
    "Protoast.Props.C94_panic"
   ],
   "note": "The statement as a user expects it is false (C94_false: the resolvers' errors are dropped and a plain 'not found' is returned); C94_error, C94_partial, C94_new_registry and C94_panic give the exact behaviour. The texts of resolver, os and parser errors are parameters."
  },
  {
   "property": "C95",
   "status": "proved",
   "theorems": [
    "Protoast.Props.C95_again",
    "Protoast.Props.C95_readers"
   ],
   "note": "For any client, reachable or not. A write of the value that is already there would be invisible in the model; the code has none on these paths (registry_types.go:140, ast_message.go:237 return before the deferred write)."
  },
  {
   "property": "C96",
   "status": "proved",
   "theorems": [
    "Protoast.Props.C96_readers",
    "Protoast.Props.C96_progress"
   ],
   "note": "Programs in small steps for every call of the model (Small/Code.lean); that a program run alone does what Model/*.lean says is Small/Alone3.lean call_handles, call_answer. Reads between two writes of a goroutine are one step."
  },
  {
   "property": "C97",
   "status": "proved",
   "theorems": [
    "Protoast.Props.C97_locked",
    "Protoast.Props.C97_reachable"
   ],
   "note": "For all programs, loads and panicking calls included."
  },
  {
   "property": "C98",
   "status": "partial",
   "theorems": [
    "Protoast.Props.C98_false",
    "Protoast.Props.C98_wrong_type",
    "Protoast.Props.C98_partial"
   ],
   "note": "False: Proto records a file before it indexes it, so another goroutine gets the file too early, finds no type of a field and the nil stays cached (C98_wrong_type: or the wrong type, which stays). (In real Go the same unsynchronised writes may also abort the process; the model interleaves steps.) C98_partial: under a lock. Without a lock: C96 after a warm-up, C101 for all calls that load nothing."
  },
  {
   "property": "C99",
   "status": "proved",
   "theorems": [
    "Protoast.Props.C99_accessors"
   ],
   "note": "An accessor looks at the parsed declaration only, and a load does not change declarations that exist. Example: a reader beside a goroutine that loads."
  }
 ]
}