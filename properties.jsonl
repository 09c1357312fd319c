{"id": "C01", "title": "Relative names resolve innermost-first", "statement": "Resolving a relative type name N from a scope S succeeds exactly when some enclosing scope of S (S itself, each prefix of S cut at a dot, down to the root) has S'.N registered, and then the answer is S'.N for the longest such S'. If none exists the lookup fails.", "quantifier": "every set of registered names, every scope string, every relative name of any depth and length", "why_tests_cant": "The number of scopes, names and registered sets is unbounded; tests sample a handful of depths.", "anchors": ["internal/core/registry_name_resolver.go:resolveNameRaw", "internal/core/registry_types.go:getTypeByName"]}
{"id": "C02", "title": "Absolute names are looked up verbatim", "statement": "A name starting with a dot resolves iff exactly that name is registered, to itself, whatever the scope is.", "quantifier": "every registry, scope and dotted name", "why_tests_cant": "Must hold for all scopes and names.", "anchors": ["internal/core/registry_name_resolver.go:resolveNameRaw"]}
{"id": "C03", "title": "The leading dot of a scope is irrelevant", "statement": "Resolution from scope 'a.b' and from scope '.a.b' gives the same answer for every name; File options use the undotted package name and must see the same names as declarations of that package.", "quantifier": "every registry, scope and name", "why_tests_cant": "All scopes and names; a test only sees a few.", "anchors": ["internal/core/registry_name_resolver.go:resolveNameRaw", "internal/core/ast_file.go:File.Package"]}
{"id": "C04", "title": "Type references agree with the protobuf scoping rule", "statement": "For every relative type reference protoc accepts (the innermost scope that declares the first component is an aggregate that contains the rest), the library resolves it to the same declaration, provided no non-type declaration of the same name sits in a closer scope.", "quantifier": "every registered set closed under enclosing names, every scope, every multi-component name", "why_tests_cant": "protoc's rule and the library's rule differ as algorithms; their agreement is a universally quantified statement.", "anchors": ["internal/core/registry_name_resolver.go:resolveNameRaw", "internal/core/registry_types.go:getTypeByName"]}
{"id": "C05", "title": "A type reference never resolves to a non-type", "statement": "If a type with the referenced name is declared in an enclosing scope, asking a field for its type yields that type and does not panic, even when a field, oneof, or method of the same name is declared in a closer scope.", "quantifier": "every file, field and scope", "why_tests_cant": "Needs all combinations of shadowing declarations.", "anchors": ["internal/core/registry_types.go:getTypeByName", "internal/core/visitor_demark.go:VisitNormalField"]}
{"id": "C06", "title": "Loading terminates on every import graph", "statement": "Registry.Proto(path) terminates, with a result independent of any step budget, whenever the set of paths reachable through imports is finite, including self imports and import cycles of any shape.", "quantifier": "every finite import graph, including cyclic ones, and every registry state", "why_tests_cant": "There are unboundedly many graphs.", "anchors": ["internal/core/registry.go:Registry.Proto", "internal/core/visitor_demark.go:VisitImport"]}
{"id": "C07", "title": "Each path is read and parsed at most once", "statement": "Over any history of calls, for every import path at most one successful read-and-parse is performed, and the file instance bound to a path never changes afterwards.", "quantifier": "every history of API calls, every file system behaviour between calls", "why_tests_cant": "Quantifies over histories of any length.", "anchors": ["internal/core/registry.go:protoFile"]}
{"id": "C08", "title": "Proto is idempotent and stable", "statement": "Once Proto(path) has returned a file, every later Proto(path), after any other calls and whatever happened to the files on disk, returns without error a file with the same contents, and such a repeated call does not change what any name resolves to.", "quantifier": "every history after a successful load, every change of the file system", "why_tests_cant": "Histories and file system changes are unbounded.", "anchors": ["internal/core/registry.go:Registry.Proto"]}
{"id": "C09", "title": "Loading a file loads and registers its whole import closure", "statement": "If Proto(path) succeeds in a registry whose earlier loads did not panic, every file reachable through imports is loaded and every declaration of every such file is registered under its fully qualified name and can be found by it.", "quantifier": "every import graph, any cycles, every declaration at every nesting depth", "why_tests_cant": "Needs all graphs and nesting depths.", "anchors": ["internal/core/registry.go:demarkFile", "internal/core/visitor_demark.go:visitorDemark"]}
{"id": "C10", "title": "Registered names are sound", "statement": "In every reachable registry, every registered name denotes a declaration of a loaded file, and the name is the one protobuf gives that declaration: package, then names of the enclosing messages and services, then its own name; extend blocks, enums and oneofs do not contribute a component.", "quantifier": "every history of loads and queries, every file, every nesting depth", "why_tests_cant": "Unbounded nesting and histories.", "anchors": ["internal/core/visitor_demark.go:visitorDemark"]}
{"id": "C11", "title": "NodeIndex is the fully qualified name", "statement": "NodeIndex of a message, field, oneof, oneof branch, map field, enum, enum value, service or method handle is that declaration's fully qualified protobuf name.", "quantifier": "every declaration of every loaded file", "why_tests_cant": "All declarations at all depths.", "anchors": ["internal/core/registry_meta.go:NodeIndex", "internal/core/visitor_demark.go:visitorDemark"]}
{"id": "C12", "title": "NodeByFullName inverts NodeIndex", "statement": "When no two loaded declarations share a fully qualified name, NodeByFullName(NodeIndex(n)) is the identical node n for every declared message, enum, service, method or field handle n.", "quantifier": "every reachable registry with unique names and every handle", "why_tests_cant": "All registries and handles.", "anchors": ["internal/core/registry_types.go:NodeByFullName", "internal/core/registry_meta.go:NodeIndex"]}
{"id": "C13", "title": "The registry does not depend on load order", "statement": "Two registries that loaded the same set of files without panics, in any order and through any entry points, register the same names for corresponding declarations, as long as fully qualified names are unique.", "quantifier": "every pair of histories over the same files", "why_tests_cant": "Unboundedly many orders.", "anchors": ["internal/core/registry.go:Registry.Proto", "internal/core/visitor_demark.go:VisitImport"]}
{"id": "C14", "title": "A failed load leaves no trace", "statement": "If Proto(path) reports an error, the registry is exactly as before the call, so a later retry starts clean.", "quantifier": "every registry, path and file system", "why_tests_cant": "All failure points.", "anchors": ["internal/core/registry.go:Registry.Proto", "internal/core/registry.go:protoFile"]}
{"id": "C15", "title": "A missing or broken import is reported as an error", "statement": "If some transitively imported file cannot be found or parsed, Proto(path) returns an error rather than panicking, and a later Proto(path) does not silently return a partially registered file.", "quantifier": "every import graph with a missing or unparsable file", "why_tests_cant": "Failure point may be anywhere in an unbounded graph.", "anchors": ["internal/core/visitor_demark.go:VisitImport", "internal/core/registry.go:Registry.Proto"]}
{"id": "C16", "title": "Resolvers are consulted in order, first hit wins", "statement": "A path is read from the location given by the first resolver that does not answer 'does not exist'; resolvers after it are irrelevant; if that resolver fails with another error, loading fails with it; if all answer 'does not exist', the file is not found.", "quantifier": "every list of resolvers, every path", "why_tests_cant": "All lists of resolvers of any length.", "anchors": ["internal/core/registry.go:protoFile"]}
{"id": "C17", "title": "NodeIndex of a file is its package", "statement": "NodeIndex of a loaded file is the dotted package name of that file, no matter whether it was loaded by Proto or through an import.", "quantifier": "every load order", "why_tests_cant": "Depends on the history of loads.", "anchors": ["internal/core/visitor_demark.go:VisitPackage", "internal/core/visitor_demark.go:VisitImport", "internal/core/registry_meta.go:NodeIndex"]}
{"id": "C18", "title": "Declarations before the package statement belong to the package", "statement": "The position of the package statement in a file does not influence the fully qualified names of its declarations.", "quantifier": "every file and every position of the package statement", "why_tests_cant": "All files.", "anchors": ["internal/core/visitor_demark.go:VisitPackage"]}
{"id": "C19", "title": "Loading more files never invalidates what was handed out", "statement": "Any handle obtained earlier stays valid after further loads and queries: names, iteration results, parents, files and positions read through it are unchanged, and a fully qualified name keeps denoting the same declaration as long as names are unique.", "quantifier": "every history, every handle obtained before", "why_tests_cant": "All histories.", "anchors": ["internal/core/registry.go:Registry", "internal/core/registry_types.go:wrap"]}
{"id": "C20", "title": "Only imported files influence type resolution", "statement": "The type a field refers to depends only on the file and its imports, not on unrelated files loaded into the same registry.", "quantifier": "every pair of histories", "why_tests_cant": "All histories and all unrelated files.", "anchors": ["internal/core/registry_name_resolver.go:resolveNameRaw"]}
{"id": "C21", "title": "Build is independent of the order of roots", "statement": "Build yields protoc's resolver first (when requested) and then one resolver per root in lexicographic byte order; permuting or regrouping WithRoot arguments does not change the result.", "quantifier": "every sequence of WithRoot/WithProtoc calls and every file system", "why_tests_cant": "All permutations and lengths.", "anchors": ["internal/core/path_resolvers.go:PathResolversBuilder.Build"]}
{"id": "C22", "title": "Duplicate roots are harmless", "statement": "Giving the same root twice has the same effect as giving it once.", "quantifier": "every multiset of roots", "why_tests_cant": "All multisets.", "anchors": ["internal/core/path_resolvers.go:PathResolversBuilder.Build"]}
{"id": "C23", "title": "Resolved paths stay inside their root", "statement": "A resolver for root R answers only with locations inside R, whatever the import path is.", "quantifier": "every root and import path", "why_tests_cant": "All strings.", "anchors": ["internal/core/path_resolvers.go:pathResolverRoot.Resolve"]}
{"id": "C24", "title": "One declaration, one node", "statement": "In any history of calls, all handles obtained for the same message, field, enum, enum value, branch, service, method, import, reserved, syntax or package element are the identical node, by whichever route they were obtained, so comparing types with == is sound.", "quantifier": "every history, every pair of handles", "why_tests_cant": "All histories and routes.", "anchors": ["internal/core/registry_types.go:wrap", "internal/core/registry_types.go:getTypeByName"]}
{"id": "C25", "title": "Different declarations, different nodes", "statement": "Two handles for different declarations are never the identical node, even when the declarations have equal names.", "quantifier": "every history, every pair of handles", "why_tests_cant": "All histories.", "anchors": ["internal/core/registry_types.go:wrap"]}
{"id": "C26", "title": "File handles are comparable", "statement": "Proto(path), NodeFile and the root of NodeHierarchy give the identical node for the same file.", "quantifier": "every history", "why_tests_cant": "All histories.", "anchors": ["internal/core/registry.go:Registry.Proto", "internal/core/registry_types.go:NodeFile"]}
{"id": "C27", "title": "The type of a field is stable", "statement": "Two calls of Type on a field return the identical type, whatever calls (including loads) happen in between.", "quantifier": "every history between the calls", "why_tests_cant": "All histories.", "anchors": ["internal/core/ast_message.go:MessageField.Type"]}
{"id": "C28", "title": "A failing query keeps failing", "statement": "If NodeByFullName or another node query panics for an argument, the same query panics again when repeated; a panic does not change later answers.", "quantifier": "every registry and argument", "why_tests_cant": "Requires reasoning about state left by panics.", "anchors": ["internal/core/registry_types.go:wrap", "internal/core/ast_message.go:MessageField.Type"]}
{"id": "C29", "title": "File iterators are exact", "statement": "Imports, Messages, Enums, Types and Services of a file yield exactly the corresponding top-level declarations (extend blocks excluded from Messages and Types), each once, in source order, and never fail.", "quantifier": "every loaded file of any size", "why_tests_cant": "All files.", "anchors": ["internal/core/ast_file.go:File"]}
{"id": "C30", "title": "Message, oneof, enum and service iterators are exact", "statement": "Fields, nested Messages, nested Types, Branches, Values, Enums of an enum (there are none in files protoc accepts) and Methods yield exactly the corresponding members, each once, in source order, and never fail.", "quantifier": "every loaded declaration", "why_tests_cant": "All declarations.", "anchors": ["internal/core/ast_message.go:Message", "internal/core/ast_oneof.go:OneOf.Branches", "internal/core/ast_enum.go:Enum.Values", "internal/core/ast_service.go:Service.Methods"]}
{"id": "C31", "title": "Lookup by name agrees with iteration", "statement": "Message, Enum (of a file or an enum), Type, Service, Field, Value, Branch, Method called with a name return the first element of the corresponding iterator that has this name, and nil iff there is none.", "quantifier": "every declaration and every name", "why_tests_cant": "All names.", "anchors": ["internal/core/ast_file.go:File.Message", "internal/core/ast_message.go:Message.Field", "internal/core/ast_enum.go:Enum.Value", "internal/core/ast_oneof.go:OneOf.Branch", "internal/core/ast_service.go:Service.Method"]}
{"id": "C32", "title": "Everything enumerates everything", "statement": "Everything of a file, message, enum or service yields one node per element in source order without panicking.", "quantifier": "every loaded file", "why_tests_cant": "All element mixes, including comments, groups and extension ranges.", "anchors": ["internal/core/ast_file.go:File.Everything", "internal/core/ast_message.go:Message.Everything", "internal/core/ast_enum.go:Enum.Everything", "internal/core/ast_service.go:Service.Everything"]}
{"id": "C33", "title": "Iterators are lazy and stop on demand", "statement": "Whatever the loop body does (including other calls on the registry), a loop that stops after k elements has seen exactly the first k elements of the full iteration, and nothing of the remainder is evaluated, so a failure beyond element k cannot surface.", "quantifier": "every iterator, every consumer, every k", "why_tests_cant": "All consumers and stopping points.", "anchors": ["internal/core/ast_file.go:File.Everything", "internal/core/ast_message.go:Message.Fields", "internal/core/ast_option.go:seqOptions"]}
{"id": "C34", "title": "NodeParent inverts iteration", "statement": "The parent of a node obtained by iterating X is X: fields, nested types and reserved of a message, values of an enum, branches of a oneof, methods of a service, top-level declarations of a file.", "quantifier": "every handle in every history", "why_tests_cant": "All handles.", "anchors": ["internal/core/registry_types.go:NodeParent"]}
{"id": "C35", "title": "NodeHierarchy climbs to the file", "statement": "NodeHierarchy of any declaration handle terminates, starts with the node itself, each next element is the parent of the previous one, and ends with the file that contains it.", "quantifier": "every handle, every nesting depth", "why_tests_cant": "Unbounded depth.", "anchors": ["internal/core/registry_types.go:NodeHierarchy"]}
{"id": "C36", "title": "NodeFile finds the right file", "statement": "NodeFile of any declaration handle is the file the declaration was parsed from, and builtin types have no file.", "quantifier": "every handle", "why_tests_cant": "All handles.", "anchors": ["internal/core/registry_types.go:NodeFile"]}
{"id": "C37", "title": "Pos is total and points into the right file", "statement": "Pos of any declaration, option or option value returns its source position, whose file name is the path under which its file was loaded.", "quantifier": "every handle, including nested option values", "why_tests_cant": "All handles.", "anchors": ["internal/core/registry_meta.go:Pos"]}
{"id": "C38", "title": "Builtin type names are recognised exactly", "statement": "A field whose declared type name is one of the fifteen scalar keywords gets the builtin type printing that very keyword; every other name never gives a builtin type; map keys accept every scalar but bytes.", "quantifier": "every type name", "why_tests_cant": "All strings.", "anchors": ["internal/core/registry_types.go:builtinType", "internal/core/ast_builtin.go"]}
{"id": "C39", "title": "Repeated is reflected exactly", "statement": "Type of a field is a repeated type iff the field is declared repeated, and its element is what the same field would have without the repeated label.", "quantifier": "every field", "why_tests_cant": "All fields.", "anchors": ["internal/core/registry_types.go:getTypeByName"]}
{"id": "C40", "title": "Map value types resolve like field types", "statement": "The value type of a map field is resolved by the same scoping rule as the type of an ordinary field declared at the same place.", "quantifier": "every map field, every registry", "why_tests_cant": "All scopes and names.", "anchors": ["internal/core/ast_map.go:Map.Value"]}
{"id": "C41", "title": "Method signatures are resolved", "statement": "Input and Output return the declared stream flags and the message the declared type name resolves to in the scope of the method, and fail iff it does not resolve to a message.", "quantifier": "every method", "why_tests_cant": "All methods and scopes.", "anchors": ["internal/core/ast_service.go:Method.Input", "internal/core/ast_service.go:Method.Output"]}
{"id": "C42", "title": "TypeName prints every type", "statement": "TypeName of a message or enum is its fully qualified name, of a builtin its keyword, of a repeated type 'repeated ' plus the element's name; it is defined for every type the API can return.", "quantifier": "every type handle", "why_tests_cant": "All handles.", "anchors": ["internal/core/registry_types.go:TypeName"]}
{"id": "C43", "title": "TypeIsDefined means identity with the named type", "statement": "TypeIsDefined(t, ref) holds iff t is the very message or enum that NodeByFullName(ref) denotes; for unregistered ref it is false for every t.", "quantifier": "every registry, type handle and name", "why_tests_cant": "All registries.", "anchors": ["internal/core/registry_simple.go:TypeIsDefined"]}
{"id": "C44", "title": "Reserved.Values denotes the reserved set", "statement": "The values yielded by Reserved.Values denote exactly the numbers and names of the reserved statement, ranges first, in source order, 'max' ranges open ended.", "quantifier": "every reserved statement", "why_tests_cant": "All range lists.", "anchors": ["internal/core/ast_reserved.go:Reserved.Values"]}
{"id": "C45", "title": "Options are enumerated exactly", "statement": "Registry.Options(node) yields one option per option element of the node, in order, each bound to the field its name resolves to: the registered extension field if the name resolves, else the like-named field of the option class of the node's kind.", "quantifier": "every optionable node and every registry", "why_tests_cant": "All nodes and names.", "anchors": ["internal/core/registry_meta.go:Options", "internal/core/ast_option.go:newOption"]}
{"id": "C46", "title": "Predefined options are not hijacked", "statement": "A predefined option such as deprecated is bound to the field of the descriptor option message even if the schema declares something with the same simple name nearby.", "quantifier": "every schema", "why_tests_cant": "All schemas.", "anchors": ["internal/core/ast_option.go:newOption"]}
{"id": "C47", "title": "OptionNamed finds the option", "statement": "OptionNamed(node, name) returns the first option of the node whose fully qualified name is the given one (as in the README), and nil if there is none, for every optionable node.", "quantifier": "every node and name", "why_tests_cant": "All nodes and names.", "anchors": ["internal/core/registry_meta.go:OptionNamed", "internal/core/ast_option.go:namedOption", "README.md"]}
{"id": "C48", "title": "Everything, Method.Options and Registry.Options agree", "statement": "The options reached through Everything or Method.Options are bound to the same fields as through Registry.Options.", "quantifier": "every node with options", "why_tests_cant": "All nodes and option names.", "anchors": ["internal/core/registry_types.go:wrapOption", "internal/core/ast_service.go:Method.Options", "internal/core/registry_meta.go:Options"]}
{"id": "C49", "title": "Option values have the type of their field", "statement": "Option.Value of an option whose field has scalar, enum or message type and a literal valid for it is a value of the corresponding variant holding the literal's value; for every field type protobuf allows.", "quantifier": "every option field type and literal, any nesting depth", "why_tests_cant": "All literals.", "anchors": ["internal/core/ast_option_value.go:buildFromLiteral"]}
{"id": "C50", "title": "Repeated options keep all their elements", "statement": "The value of a repeated option has one element per element of the array literal, in order, and a single non-array literal gives one element.", "quantifier": "every literal", "why_tests_cant": "All literals.", "anchors": ["internal/core/ast_option_value.go:buildFromLiteral"]}
{"id": "C51", "title": "Integer option values round-trip", "statement": "For every 64-bit integer v, an option of a signed integer type or of fixed32 or fixed64 set to the decimal rendering of v has value v, and its String() is that rendering; out-of-range or non-decimal literals are rejected.", "quantifier": "every integer and every literal string", "why_tests_cant": "2^64 values and all strings.", "anchors": ["internal/core/ast_option_value.go:buildFromLiteral", "internal/core/ast_option_value.go:OptionValueInt.String"]}
{"id": "C52", "title": "GoPackage splits at the first semicolon", "statement": "GoPackageOption of a go_package option returns Path and Name such that source = Path;Name with no semicolon in Path, or Path = source and empty Name when there is none; for any other option or node it is nil. IsValid iff both are non-empty.", "quantifier": "every source string and node", "why_tests_cant": "All strings.", "anchors": ["internal/core/registry_simple.go:GoPackageOption"]}
{"id": "C53", "title": "GoPackage finds the file's go_package", "statement": "GoPackage(node) is the parsed go_package of the file containing node, and nil iff the file has none, for every file.", "quantifier": "every node", "why_tests_cant": "All files.", "anchors": ["internal/core/registry_simple.go:GoPackage"]}
{"id": "C54", "title": "Comments are those of the source element", "statement": "Comment(node) returns the comment lines attached to the element in the source and nil when there are none.", "quantifier": "every handle", "why_tests_cant": "All handles.", "anchors": ["internal/core/registry_meta.go:Comment"]}
{"id": "C55", "title": "NodeDescription is total", "statement": "NodeDescription returns a description for every node the API hands out.", "quantifier": "every handle", "why_tests_cant": "All handles.", "anchors": ["internal/core/registry_meta.go:NodeDescription"]}
{"id": "C56", "title": "Field accessors mirror the source", "statement": "Name, Value and Optional of a field, branch, enum value are those of the source; Value of a oneof field fails and nothing else does. IsExtension is true exactly for extend blocks; Path, Value and Package of an import, syntax or package statement are what it says; Name of a file is its path and Package of a file is what its first package statement says, empty if there is none.", "quantifier": "every handle", "why_tests_cant": "All handles.", "anchors": ["internal/core/ast_message.go:MessageField", "internal/core/ast_enum.go:EnumValue", "internal/core/ast_oneof.go:OneOfBranch"]}
{"id": "C57", "title": "Read-only queries do not change meaning", "statement": "No query (iteration, type, option, parent, position ...) changes which files are loaded, what any name denotes, or any fully qualified name.", "quantifier": "every query, every state", "why_tests_cant": "All queries.", "anchors": ["internal/core/registry_types.go:wrap", "internal/core/registry_meta.go:Options"]}
{"id": "C58", "title": "Concurrent readers see consistent nodes", "statement": "If several goroutines query a registry concurrently, all obtain the identical node for the same declaration.", "quantifier": "every interleaving", "why_tests_cant": "Schedules are unbounded.", "anchors": ["internal/core/registry_types.go:wrap"]}
{"id": "C59", "title": "Option values print as written", "statement": "String() of an option value renders booleans, integers, strings, enum constants, arrays and messages compositionally and in order; distinct integer arrays print differently.", "quantifier": "every option value of any depth", "why_tests_cant": "All values.", "anchors": ["internal/core/ast_option_value.go:OptionValueArray.String", "internal/core/ast_option_value.go:OptionValueMap.String"]}
{"id": "C60", "title": "Option identity test is exact", "statement": "Option.Is(r, name) holds iff name is the fully qualified name of the field that defines the option.", "quantifier": "every option and name", "why_tests_cant": "All names.", "anchors": ["internal/core/ast_option.go:Option.Is"]}
{"id": "C61", "title": "The type of a field is determined by the source", "statement": "The declaration that the type name of a field denotes for Type is determined by the loaded source files alone: it is the declaration whose fully qualified name is the type name prefixed with the innermost scope enclosing the field for which such a declaration exists in any loaded file, whatever was called before. (What Type returns for it is C74; that the load order does not matter is C85.)", "quantifier": "every history without loading panics, every declared field and relative type name", "why_tests_cant": "All histories and all files.", "anchors": ["internal/core/registry_types.go:getTypeByName"]}
{"id": "C62", "title": "WithProtoc finds the include directory beside bin", "statement": "If protoc is found at dir/bin/protoc, the resolver WithProtoc adds searches dir/include; Build fails if dir/include/google/protobuf/any.proto does not exist.", "quantifier": "every location of protoc and every file system", "why_tests_cant": "All paths.", "anchors": ["internal/core/path_resolvers.go:newPathResolverProtoc"]}
{"id": "C63", "title": "A file is read from the first root that has it", "statement": "With the resolvers Build returns, an import path is read below protoc's include directory if it exists there, otherwise below the lexicographically first root in which it exists.", "quantifier": "every set of roots, import path and file system", "why_tests_cant": "All paths and file systems.", "anchors": ["internal/core/path_resolvers.go:pathResolverRoot.Resolve", "internal/core/registry.go:protoFile"]}
{"id": "C64", "title": "Proto has exactly three outcomes", "statement": "Proto(path) returns an error iff path itself cannot be found, read or parsed; it panics iff path can be read but some file in its import closure cannot, and the panic names such a file; it returns the file iff the whole closure can be read. It always terminates with one of these.", "quantifier": "every registry state, file system and import graph (cycles included)", "why_tests_cant": "Import graphs and registry states are unbounded.", "anchors": ["internal/core/registry.go:Proto", "internal/core/registry.go:demarkFile", "internal/core/visitor_demark.go:VisitImport"]}
{"id": "C65", "title": "The index of an imported file stays empty", "statement": "NodeIndex of a file that was first loaded because another file imports it is empty in every later state, also after the file itself is passed to Proto.", "quantifier": "every history", "why_tests_cant": "Histories are unbounded.", "anchors": ["internal/core/registry.go:Proto", "internal/core/registry_meta.go:NodeIndex"]}
{"id": "C66", "title": "The library agrees with protoc about the types of valid programs", "statement": "If the loaded files have distinct full names, no declaration is named like a package, and protoc's scoping rule reads the type name of a field, oneof branch or method as the message or enum declared at q, then Type (Input, Output) returns the node of q, provided no non-type of the same one-component name is in a closer scope.", "quantifier": "every set of loaded files, every reference", "why_tests_cant": "All programs.", "anchors": ["internal/core/registry_types.go:getTypeByName", "internal/core/registry_name_resolver.go:resolveNameRaw", "internal/core/visitor_demark.go:visitorDemark"]}
{"id": "C67", "title": "NodeByFullName of an unknown name panics exactly once per registry", "statement": "In any history, NodeByFullName of a name that is not registered panics if no earlier call of the history asked for an unregistered name; after that it returns nil for every unregistered name, changing nothing.", "quantifier": "every history, every name", "why_tests_cant": "Depends on the whole earlier history.", "anchors": ["internal/core/registry_types.go:NodeByFullName", "internal/core/registry_types.go:wrap"]}
{"id": "C68", "title": "Map.Value: exact result", "statement": "Map.Value gives the builtin type for a keyword, the node of the message or enum whose full name without the leading dot is the declared value type, and panics in every other case.", "quantifier": "every map field, every set of loaded files", "why_tests_cant": "All programs.", "anchors": ["internal/core/ast_map.go:Value"]}
{"id": "C69", "title": "TypeName: exact domain", "statement": "TypeName succeeds exactly for messages, enums, builtin types, oneofs and repeated types of these and panics for all other nodes; for messages and enums it is the same as NodeIndex in every state.", "quantifier": "every node, every state", "why_tests_cant": "Nesting of repeated types and states are unbounded.", "anchors": ["internal/core/registry_meta.go:TypeName", "internal/core/registry_meta.go:NodeIndex"]}
{"id": "C70", "title": "Everything: exact behaviour per element", "statement": "The i-th step of Everything delivers the node of the i-th element if the library has a node type for it and, for an option, the option is bound at top level; an option that is not bound makes it panic always; a comment, group, extension range or edition makes it panic or is delivered as nil, and once it has panicked there it delivers nil for ever.", "quantifier": "every handle, element and history", "why_tests_cant": "Histories are unbounded.", "anchors": ["internal/core/ast_file.go:Everything", "internal/core/ast_message.go:Everything", "internal/core/registry_types.go:wrap"]}
{"id": "C71", "title": "File.Message and File.Type: exact result", "statement": "File.Message returns the node of the first statement of the file that declares a message of that name or is an extend block written with that name, nil if there is none; File.Type the same with enums included. Neither panics.", "quantifier": "every file handle and name", "why_tests_cant": "All files and names.", "anchors": ["internal/core/ast_file.go:Message", "internal/core/ast_file.go:Type"]}
{"id": "C72", "title": "Pos: exact domain", "statement": "Pos succeeds for every handle of something written in a file and never returns for builtin types, repeated types, array values and items of map values, in any state.", "quantifier": "every handle of every history, every state", "why_tests_cant": "Histories are unbounded.", "anchors": ["internal/core/registry_meta.go:Pos"]}
{"id": "C73", "title": "NodeIndex of an enum value is always empty", "statement": "In every reachable state NodeIndex of an enum value handle is the empty string and no declaration is registered under the empty string.", "quantifier": "every history", "why_tests_cant": "Histories are unbounded.", "anchors": ["internal/core/registry_meta.go:NodeIndex", "internal/core/visitor_demark.go:VisitEnumField"]}
{"id": "C74", "title": "Type of a field over the whole history: the first call decides", "statement": "In any history, the first Type call on a field looks the declared type name up in the state of that moment (repeated label adds a Repeated wrapper, a name denoting a non-type panics); every later Type call on any handle of that field returns the identical type, or nil if the first call panicked, whatever was loaded in between.", "quantifier": "every history, every handle of the field", "why_tests_cant": "Histories are unbounded.", "anchors": ["internal/core/ast_message.go:Type", "internal/core/registry_types.go:wrap"]}
{"id": "C75", "title": "Names follow the package statement above", "statement": "For files with any number of package statements at any place, every declaration is registered, found by NodeByFullName and indexed by NodeIndex under the name built from the last package statement above its top level element (none: the root scope); nothing else is registered. When the package statement comes first this is the fully qualified protobuf name.", "quantifier": "every file, every history", "why_tests_cant": "All files and histories.", "anchors": ["internal/core/visitor_demark.go:VisitPackage", "internal/core/registry_meta.go:NodeIndex", "internal/core/registry_types.go:NodeByFullName"]}
{"id": "C76", "title": "Options, exactly", "statement": "Options returns one option per option statement, in source order, each bound by the protobuf rules in the lookup scope of the node (the outermost scope for enum values, the package for a file, the own full name for other declarations), and panics if and only if some statement is not bound there; Method.Options does the same in the outermost scope; OptionNamed returns nil if no statement is written exactly like the name, else the first such statement bound in the lookup scope, and panics if and only if that statement is not bound.", "quantifier": "every history, every node that can have options, every name", "why_tests_cant": "All schemas, histories and names.", "anchors": ["internal/core/registry_meta.go:Options", "internal/core/registry_meta.go:OptionNamed", "internal/core/ast_service.go:Method.Options", "internal/core/ast_option.go:newOption"]}
{"id": "C77", "title": "Option values lead back to their option", "statement": "NodeParent of an option value is the option it is the value of, and NodeFile of the value and of all its parts (array elements, message items, at any depth) is the file of that option.", "quantifier": "every history, every option, every part of its value", "why_tests_cant": "All values, depths and histories.", "anchors": ["internal/core/registry_types.go:NodeParent", "internal/core/registry_types.go:NodeFile", "internal/core/ast_option_value.go:buildFromLiteral"]}
{"id": "C78", "title": "NodeParent, NodeHierarchy and NodeFile of option values: exact result", "statement": "NodeParent of an option value never returns a node: the first call for an option panics, every later one returns nil; NodeHierarchy panics after the value or consists of the value alone; NodeFile of a proper part of a value panics in every state.", "quantifier": "every history, every option value", "why_tests_cant": "All values, depths and histories.", "anchors": ["internal/core/registry_types.go:NodeParent", "internal/core/registry_types.go:NodeHierarchy", "internal/core/registry_types.go:NodeFile", "internal/core/registry_types.go:wrap"]}
{"id": "C79", "title": "No call on a handle runs forever", "statement": "Every call on a handle (iterators, lookups, types, options and their values, parents, hierarchy, positions, ...) comes to an end; NodeHierarchy and Pos take no more steps than the declaration is nested deep, plus one.", "quantifier": "every history, every handle, every call", "why_tests_cant": "All histories, all declaration trees, all nesting depths.", "anchors": ["internal/core/registry_types.go:NodeHierarchy", "internal/core/registry_types.go:Pos", "internal/core/registry_types.go:NodeParent", "internal/core/ast_option_value.go:buildFromLiteral"]}
{"id": "C80", "title": "The complete list of panics", "statement": "A call on a handle panics only in the ways listed for that call and that kind of handle (Spec/Panics): calls with an empty list (iterators over one kind of declaration, lookups by name, names, comments, indices, ...) never panic, and NodeByFullName panics only for unknown names. No list is longer than it has to be.", "quantifier": "every history, including ones with panicking loads and calls, every handle, every call", "why_tests_cant": "All histories and all declaration trees, including ill-formed programs.", "anchors": ["internal/core/registry_types.go:wrap", "internal/core/registry_types.go:NodeParent", "internal/core/registry_types.go:NodeFile", "internal/core/registry_types.go:Pos", "internal/core/ast_option.go:newOption", "internal/core/ast_option_value.go:buildFromLiteral"]}
{"id": "C81", "title": "Loops over Everything: exact result", "statement": "A loop over Everything of a file, message, enum or service comes to its end exactly if each element can be delivered by itself; then exactly one thing per element is delivered, in source order: the node of the element, the option bound at top level, or nil for elements without node type.", "quantifier": "every history, including panicking calls and loads, every handle that has Everything", "why_tests_cant": "All histories and declaration trees.", "anchors": ["internal/core/ast_file.go:File.Everything", "internal/core/ast_message.go:Message.Everything", "internal/core/ast_enum.go:Enum.Everything", "internal/core/ast_service.go:Service.Everything", "internal/core/registry_types.go:wrapOption"]}
{"id": "C82", "title": "GoPackage: exact result", "statement": "GoPackage succeeds exactly if Everything of the file can deliver every element up to the first go_package option (all elements if there is none); the result is then the parsed first option bound to go_package at top level, nil if there is none.", "quantifier": "every history without a panicking load, every handle with a file", "why_tests_cant": "All histories and files.", "anchors": ["internal/core/registry_simple.go:GoPackage", "internal/core/registry_simple.go:GoPackageOption", "internal/core/ast_file.go:File.Everything"]}
{"id": "C83", "title": "Every declaration can be reached by walking down from its file", "statement": "From a handle for a file, each declaration the iterators offer (imports, messages, enums, services, fields, oneofs, branches, enum values, methods; not extend blocks and groups), at any nesting depth, is reached with at most two calls per level, iterator steps and Type calls only; the handle obtained is of the kind of the declaration and is for that very declaration.", "quantifier": "every history, every file handle, every declaration tree of any depth", "why_tests_cant": "All histories and nesting depths.", "anchors": ["internal/core/ast_file.go:File.Messages", "internal/core/ast_file.go:File.Types", "internal/core/ast_message.go:Message.Fields", "internal/core/ast_message.go:Message.Types", "internal/core/ast_message.go:MessageField.Type", "internal/core/ast_oneof.go:OneOf.Branches", "internal/core/ast_enum.go:Enum.Values", "internal/core/ast_service.go:Service.Methods"]}
{"id": "C84", "title": "File handles: exactly which are identical", "statement": "The handle Proto returns is never identical to any handle received before, to any later Proto result (also for the same path), or to any file handle NodeFile, NodeParent or NodeHierarchy return at any later time; those three always return the identical handle for the same file.", "quantifier": "every history, every pair of calls, loads and panics in between", "why_tests_cant": "All histories.", "anchors": ["internal/core/registry.go:Proto", "internal/core/registry_types.go:NodeFile", "internal/core/registry_types.go:NodeHierarchy", "internal/core/registry_types.go:wrap"]}
{"id": "C85", "title": "The load order cannot be observed", "statement": "Take two registries in which the same files were loaded by Proto calls, in any order, through any entry points and with any repetitions, all declared names being distinct. Run any program of API calls on both (loads of further files, lookups, iterations, option reads, navigation, in any order, panicking calls included). Then at every point both programs have received the same handles one by one (the same kind of node for the same place of the same file, the same option values), the same pairs of their handles are identical, and every further call gives the same answer: the same text, number, flag, position, Go package, error or panic. The only exception is the index of a file handle (C65).", "quantifier": "every pair of load sequences with the same set of files, and every later program of calls", "why_tests_cant": "Both the load sequences and the programs are unbounded; a test can compare a few orders and a few calls.", "anchors": ["internal/core/registry.go:Proto", "internal/core/registry.go:NodeByFullName", "internal/core/visitor_demark.go:VisitImport", "internal/core/registry_types.go:getTypeByName"]}
{"id": "C86", "title": "Queries leave no observable trace", "statement": "Calls that load no new file, and that return or panic (for a reason other than a declaration without a handle type or one that is not a type), can be left out without any later program noticing: run any program of API calls that loads no new file with and without them beforehand; it receives the same handles in the same order, two of its handles are identical in one run iff they are in the other, and every call has the same outcome and answer (names, indices, numbers, positions, panics, option values). If no Type call was among the calls left out, this holds for programs that load further files as well. (A panicking Type call, or a Type call before a load, can be noticed.)", "quantifier": "every reachable state, every sequence of such calls, every later program", "why_tests_cant": "Both the calls left out and the programs are unbounded.", "anchors": ["internal/core/registry_types.go:wrap", "internal/core/ast_message.go:MessageField.Type", "internal/core/registry.go:Proto", "internal/core/registry.go:NodeByFullName"]}
{"id": "C87", "title": "Programs sharing a registry do not influence each other", "statement": "Let several programs take turns in using one registry, calls interleaved in any way. If the other programs' calls return, or panic for reasons as in C86, and nobody loads a new file (or the others use no Type and only the program itself loads files), each program sees exactly what it would see if it had the registry for itself: same handles, same identities among them, same answers.", "quantifier": "every reachable state, every interleaving of any number of calls", "why_tests_cant": "All interleavings of unbounded programs.", "anchors": ["internal/core/registry_types.go:wrap", "internal/core/ast_message.go:MessageField.Type", "internal/core/registry.go:Proto", "internal/core/registry.go:NodeByFullName"]}
{"id": "C88", "title": "The governance linter of the README reports exactly the violations", "statement": "The linter printed in README.md exits with status 0 if, and only if, every unary method of the listed services that is not annotated with (meta.v1.non_standard_method) responds with a message that has a field response_status of type meta.v1.ResponseStatus and uses that type in no other field. Otherwise it prints one line per offending field and method, in source order, with the position of the declaration, and exits with status 1. It panics only if a file cannot be loaded or the status type or a service is not declared.", "quantifier": "every set of source files that protoc accepts, every state of the file system", "why_tests_cant": "The README offers the program as a template for schema governance; whether it is right depends on name resolution, type identity, options and positions for every schema.", "anchors": ["README.md:Governance Linter", "internal/readme/main.go:main", "internal/core/registry.go:Proto", "internal/core/ast_file.go:File.Message", "internal/core/ast_file.go:File.Service", "internal/core/ast_service.go:Service.Methods", "internal/core/ast_service.go:Method.Output", "internal/core/ast_message.go:Message.Fields", "internal/core/ast_message.go:MessageField.Type", "internal/core/registry_simple.go:Option"]}
{"id": "C89", "title": "The governance linter of the README: exact report", "statement": "For every schema protoc accepts, the lines the linter prints are, service by service and method by method in source order, for each unary method (exempt or not): one line per singular field of the response whose type is ResponseStatus and whose name is not response_status, with its position; then one line with the position and full name of the method if no singular field of type ResponseStatus is called response_status. The exit status is 0 iff there is no such line. If all files can be read it cannot panic except for a status type or service that is not declared.", "quantifier": "every set of source files that protoc accepts, every state of the file system", "why_tests_cant": "All schemas.", "anchors": ["internal/readme/main.go:main", "internal/core/registry.go:Proto", "internal/core/ast_service.go:Service.Methods", "internal/core/ast_message.go:Message.Fields", "internal/core/ast_message.go:MessageField.Type", "internal/core/registry_meta.go:OptionNamed"]}
{"id": "C90", "title": "Exactly when later files change the type of a branch", "statement": "If Type of a oneof branch returned the node of the declaration s.t for the relative name t, then after any further calls it returns the identical node if and only if no file loaded by then declares t in a scope around the branch that is closer than s.", "quantifier": "every history of loads and calls, every branch", "why_tests_cant": "Histories and files are unbounded.", "anchors": ["internal/core/registry_name_resolver.go:resolveNameRaw", "internal/core/registry_types.go:getTypeByName", "internal/core/ast_oneof.go:OneOfBranch.Type"]}
{"id": "C91", "title": "Exactly when a predefined option is captured", "statement": "An option statement written like a field of the option message (deprecated, say) is bound to the nearest declaration of that name in the scopes around the declaration, if there is any; to the field of the option message if there is none; and Options panics for it if and only if the nearest declaration is not a normal field.", "quantifier": "every history without panicking loads, every node with options, all distinct names", "why_tests_cant": "All schemas and names.", "anchors": ["internal/core/ast_option.go:newOption", "internal/core/registry_name_resolver.go:resolveNameRaw", "internal/core/registry_meta.go:Options"]}
{"id": "C92", "title": "The name an option handle reports", "statement": "Option.Name is (C).n for a field n declared in the option message C itself (C written with a leading dot) and otherwise the name as written in the source. The reported name always means the same option: bound in the scope of the statement (for a field of the option message: in any scope) it sets the same field, two options of one declaration that report the same name set the same field, and OptionNamed with the reported name finds a custom option again, with the same field; for a predefined option it finds one only if a statement spells the long form.", "quantifier": "every history without panicking loads, every option handle, all distinct names", "why_tests_cant": "All schemas, histories and names.", "anchors": ["internal/core/ast_option.go:Option.Name", "internal/core/registry_meta.go:OptionNamed", "internal/core/registry_meta.go:Options", "internal/core/registry_name_resolver.go:resolveNameRaw"]}
{"id": "C93", "title": "The Quick Start program of the README: exact output", "statement": "The program of the README's Quick Start never hangs. It fails for want of a registry iff descriptor.proto cannot be read, and for want of its file iff that one cannot be read while descriptor.proto and its imports can. If both import closures can be read, it prints its report iff every option of the file sets a field to an acceptable value, and panics otherwise; the report is the line with name and package, one line per file option in source order with its name and value, and one line per top-level message in source order, each followed by one line per field in source order.", "quantifier": "every file system, every file and every schema", "why_tests_cant": "All schemas, import graphs and failures of the file system.", "anchors": ["README.md:Quick Start / Usage", "internal/core/registry.go:NewRegistry", "internal/core/registry.go:Proto", "internal/core/registry_meta.go:Options", "internal/core/ast_option.go:Option.Name", "internal/core/ast_option.go:Option.Value", "internal/core/ast_file.go:File.Messages", "internal/core/ast_message.go:Message.Fields"]}
{"id": "C94", "title": "A file nobody knows is reported as os.ErrNotExist; errors carry path and cause", "statement": "If no resolver knows the path, errors.Is(err, os.ErrNotExist) holds of the error Proto returns. (It does not.) What holds: on a file that is not loaded Proto returns an error iff there is a cause (no resolver knows the path, the responsible resolver gives an empty location or fails, or the located file cannot be read or parsed), the registry is then unchanged, and the error is that cause annotated with the resolver or location and with the path asked for; errors.Is(err, os.ErrNotExist) holds iff a resolver located the file and it then could not be opened. NewRegistry reports the cause for descriptor.proto in the same way, and the panic of a failed import carries the path of the import and its cause.", "quantifier": "every registry, every list of resolvers, every file system and path", "why_tests_cant": "All combinations of resolver answers, file contents and registry states.", "anchors": ["internal/core/registry.go:NewRegistry", "internal/core/registry.go:Proto", "internal/core/registry.go:protoFile", "internal/core/registry.go:readProtoFile", "internal/core/visitor_demark.go:VisitImport", "internal/errors/wrap.go:Wrap"]}
{"id": "C95", "title": "On a warmed-up registry repeated calls only read", "statement": "A call that loads no new file and returned once returns again, hands out the same handles and the same answer, and changes no table of the registry, whatever calls that load nothing were made in between, even panicking ones. So after a warm-up, goroutines that only repeat calls that returned in it only read the shared registry.", "quantifier": "every registry state, every call, every history of calls that load nothing", "why_tests_cant": "All histories and interleavings of calls.", "anchors": ["internal/core/registry_types.go:wrap", "internal/core/ast_message.go:MessageField.Type", "internal/core/registry.go:Proto", "internal/core/registry_meta.go:Options", "internal/core/registry_name_resolver.go:resolveName"]}
{"id": "C96", "title": "After a warm-up goroutines only read", "statement": "After a warm-up of calls that load nothing, any number of goroutines may repeat calls of the warm-up, in any order and any number of times, on the handles of the warm-up or on the handles they receive themselves: whatever the schedule, no goroutine ever writes to a map of the registry, no call panics, every call returns what it returned in the warm-up, and under a fair schedule every goroutine finishes.", "quantifier": "every warm-up, every number of goroutines, every choice of repeated calls, every interleaving of their steps", "why_tests_cant": "Schedules are unbounded.", "anchors": ["internal/core/registry_types.go:wrap", "internal/core/ast_message.go:MessageField.Type", "internal/core/registry.go:Proto", "internal/core/registry_meta.go:Options", "internal/core/registry_name_resolver.go:resolveName"]}
{"id": "C97", "title": "A lock around each call is enough", "statement": "If goroutines hold a lock during each call (a loop: during each step of its iterator), the registry, the handles and all results are those of a sequential history that has the calls of each goroutine in their order; so everything proved about one client holds of the handles of many goroutines.", "quantifier": "every set of programs, every schedule under a lock", "why_tests_cant": "Schedules are unbounded.", "anchors": ["internal/core/registry.go:Proto", "internal/core/registry_types.go:wrap", "internal/core/ast_message.go:MessageField.Type"]}
{"id": "C98", "title": "Unsynchronised calls behave as in some order", "statement": "If several goroutines use a registry without a lock, their calls come to what they come to in some sequential order of the same calls.", "quantifier": "every set of programs, every interleaving", "why_tests_cant": "Schedules are unbounded.", "anchors": ["internal/core/registry.go:Proto", "internal/core/ast_message.go:MessageField.Type"]}
{"id": "C99", "title": "Accessors are never disturbed", "statement": "A goroutine that calls only accessors (names, packages, numbers, labels, comments, descriptions, element and key types, parts of option values) on handles it has gets, without any lock and whatever the other goroutines do (load files, query, panic), exactly the results that it gets alone; and it never writes to the registry.", "quantifier": "every reachable registry, every set of goroutines, every interleaving", "why_tests_cant": "Schedules are unbounded.", "anchors": ["internal/core/ast_message.go:MessageField.Name", "internal/core/ast_oneof.go:OneOfBranch.Name", "internal/core/ast_map.go:Map.Key"]}
{"id": "C100", "title": "What the registry keeps is bounded by what was loaded", "statement": "However many calls a client makes, the registry keeps at most one entry per loaded file, one name and one field type per statement of the loaded files, and one scope and one node per file and statement; no file is kept twice. Calls that do not load never exceed the bound set by the files loaded so far (a long-running service does not leak).", "quantifier": "every reachable registry, every number and order of calls", "why_tests_cant": "The number of calls is unbounded.", "anchors": ["internal/core/registry.go:Registry", "internal/core/registry_types.go:wrap", "internal/core/ast_message.go:MessageField.Type"]}
{"id": "C101", "title": "Queries need no lock, but for the identity of new nodes", "statement": "Once the files are loaded, any number of goroutines may query the registry at the same time without a lock (calls that load nothing and that, made alone, do not run into a declaration with no handle type): whatever the interleaving of their steps, at every moment each goroutine has the handles and results that it has when it makes its calls alone, but for the identity of nodes created meanwhile, and files, names and scopes do not change.", "quantifier": "every reachable registry, every number of goroutines, every set of programs, every interleaving", "why_tests_cant": "Schedules are unbounded.", "anchors": ["internal/core/registry_types.go:wrap", "internal/core/ast_message.go:MessageField.Type", "internal/core/registry.go:NodeByFullName", "internal/core/registry_meta.go:Options"]}
{"id": "C102", "title": "One node per declaration, under concurrent queries too", "statement": "A goroutine that queries the registry while other goroutines do never holds two different nodes for the same declaration.", "quantifier": "every reachable registry, every number of goroutines, every interleaving", "why_tests_cant": "Schedules are unbounded.", "anchors": ["internal/core/registry_types.go:wrap"]}
{"id": "C103", "title": "Handles have the type of what they stand for", "statement": "Every handle a client was given, by whatever call (loads, iterators, lookups, Type, Options, Value, NodeParent, ...), is of the Go type that belongs to the thing it stands for: a *Message for a message or extend block, a *MessageField for a field, oneof or map field, an *Option for an option statement with a message as class and a field as definition, an enum constant in an option value, at any depth, for an enum value, and so on; a *File for a loaded file. What it refers to stays there in every later state.", "quantifier": "every history, every handle, every later history", "why_tests_cant": "Handles come from every call in every state.", "anchors": ["internal/core/registry_types.go:wrap", "internal/core/ast_message.go:MessageField.Type", "internal/core/ast_oneof.go:OneOf", "internal/core/ast_option.go:newOption", "internal/core/ast_option_value.go:buildFromLiteral"]}
{"id": "C104", "title": "Names are spelled by the nodes around a declaration", "statement": "The fully qualified name of a declaration is the package of its file, then the names of the messages and services in its NodeHierarchy (extend blocks, oneofs and enums passed over), then its own name, all as the accessors of these nodes give them; this is its NodeIndex (but for enum values, C73).", "quantifier": "every history without a panicking load, every declaration at any depth", "why_tests_cant": "Nesting depth is unbounded.", "anchors": ["internal/core/registry_types.go:NodeHierarchy", "internal/core/registry_meta.go:NodeIndex", "internal/core/ast_file.go:File.Package", "internal/core/ast_message.go:Message.Name", "internal/core/visitor_demark.go:visitorDemark"]}
{"id": "C105", "title": "A file has one Go package", "statement": "Whenever GoPackage returns for two handles of things in the same file, with any calls in between that load nothing, it returns the same path and name (or nil both times).", "quantifier": "every history without a panicking load, every two handles, every sequence of calls in between", "why_tests_cant": "Histories are unbounded.", "anchors": ["internal/core/registry_simple.go:GoPackage", "internal/core/registry_simple.go:GoPackageOption"]}
{"id": "C106", "title": "Exactly what a failed load leaves behind", "statement": "If Proto(path) panics, the panic names an import m, and there is a way of newly loaded files from path to an import statement of m such that from then on, whatever calls follow (the same load again included), exactly the declarations that the load came past are known: a declaration of a file off the way, or in front of the import statement of its file on the way, is found by its full name and its handles have that name as index; a declaration behind it is never found by name and the index of its handles is empty. All imports off the way or in front are loaded. Proto(path) called again returns the file without error and loads nothing, also when the missing file has turned up.", "quantifier": "every history without a panicking load before, every world with any failures, every import graph, every history afterwards", "why_tests_cant": "A load can break off at every import of every file, and the rest of the history is unbounded.", "anchors": ["internal/core/registry.go:Proto", "internal/core/registry.go:demarkFile", "internal/core/visitor_demark.go:VisitImport", "internal/core/registry_meta.go:NodeIndex", "internal/core/registry_types.go:NodeByFullName"]}
{"id": "C107", "title": "From the roots to the registry: which file is read", "statement": "Take the resolvers Build returns and a registry that uses them. Proto(path) of a path that is not loaded goes through protoc's include directory, if it was asked for, and then the roots in lexicographic byte order, and stops at the first directory where path is not simply absent. If something exists there, it is read: its contents become part of the registry, or the call fails with the error of reading it (also if it is a directory, and whatever the later directories have). If stat fails for another reason, the call fails with that error. If path is absent everywhere, the call fails with not found.", "quantifier": "every sequence of builder calls, every file system, every path, every state of the registry", "why_tests_cant": "File systems and call sequences are unbounded.", "anchors": ["internal/core/path_resolvers.go:Build", "internal/core/path_resolvers.go:Resolve", "internal/core/registry.go:protoFile", "internal/core/registry.go:Proto"]}
{"id": "C108", "title": "A registry works on a snapshot: edits on disk behave like no edits", "statement": "(a) Whatever happens on disk while Proto(path) reads path and its imports, the call does and answers the same as on a disk that does not change and where every file looks as it did at some moment during the call. (b) Take any history of calls between which the disk changes in any way, where no Proto call panics. There is one unchanging disk, with exactly the files that are loaded in the end, each as it was when it was read, on which NewRegistry and every call of the history do and answer the same, except for the Proto calls that reported an error, which had no effect.", "quantifier": "every file system that changes at every moment, every history of calls, every state of the registry", "why_tests_cant": "Edits between any two reads of any history cannot be enumerated.", "anchors": ["internal/core/registry.go:protoFile", "internal/core/registry.go:Proto", "internal/core/registry.go:readProtoFile", "internal/core/visitor_demark.go:VisitImport"]}
{"id": "C109", "title": "What the Quick Start program has printed when it panics", "statement": "Once the file is loaded, the program of the README either prints everything (C93) and ends well, or panics having printed exactly the line of the file and, in source order, the lines of the file options before the first one that sets nothing (names no field, or has a literal its field does not accept); before the file is loaded it prints nothing.", "quantifier": "every world, every file, every list of options", "why_tests_cant": "A panic can come at any option of any file.", "anchors": ["README.md:main", "internal/core/registry_meta.go:Options", "internal/core/ast_option.go:Option.Name", "internal/core/ast_option.go:Option.Value"]}
{"id": "C110", "title": "What the linter has printed when it stops", "statement": "The governance linter, run over any list of services on files that protoc accepts, has printed, when it ends or panics, exactly the report (C89) of the services it got through, in order: all of them if it ends well; those before service x if it stops at x, and then because the file of x cannot be loaded or does not declare x; nothing if it stops before the services. No call panics in the middle of a service.", "quantifier": "every world, every list of services", "why_tests_cant": "The run can stop at any service of any list.", "anchors": ["internal/readme/main.go:main", "internal/core/registry.go:Proto", "internal/core/ast_file.go:File.Service"]}
{"id": "C111", "title": "A full walk meets every declaration exactly once", "statement": "A client that collects the imports of a file, its types (for a message also the fields, the branches of the oneofs it finds with Type, and recursively the nested types; for an enum the values), its services and their methods, ends with the handles of exactly the declarations of the file that iterators offer at every level, each of them once and with a handle of the right kind. The only other outcome is a panic of Type, and then some such field has a type name that denotes something that is not a type.", "quantifier": "every reachable registry, every file handle, files of any size and nesting depth", "why_tests_cant": "Tests walk a few small files; completeness and absence of duplicates must hold for trees of every shape and every state of the caches.", "anchors": ["internal/core/ast_file.go:File.Types", "internal/core/ast_file.go:File.Imports", "internal/core/ast_file.go:File.Services", "internal/core/ast_message.go:Message.Fields", "internal/core/ast_message.go:Message.Types", "internal/core/ast_enum.go:Enum.Values", "internal/core/ast_oneof.go:OneOf.Branches", "internal/core/ast_service.go:Service.Methods", "internal/core/ast_message.go:MessageField.Type"]}
{"id": "C112", "title": "Option.Value: exact result for every option handle", "statement": "Every option handle a client ever obtains stands for an option statement with a literal, and what its Value does is determined by the literal and the type of the option's field: if the literal has a value for the field (as the library reads literals), Value returns that value, the same in variant, data, literals and declarations of enum constants, and the enum constants in it are the very nodes the client may already hold; if it has none, Value panics. A literal never has two values for a field, neither in the protobuf language nor in what the library accepts; for literals in the supported part of the protobuf language the result is the one the language prescribes.", "quantifier": "every reachable registry, every option handle obtained at any time, every literal, nested to any depth", "why_tests_cant": "Literals are unbounded trees; that no literal is ambiguous and that no handle is left out cannot be enumerated.", "anchors": ["internal/core/ast_option.go:Option.Value", "internal/core/ast_option_value.go:buildFromLiteral"]}
{"id": "C113", "title": "Where option handles come from", "statement": "Every option handle a client holds was made by one of its own calls: Options or OptionNamed on the handle of a declaration, with the name looked up in the scope of that declaration (the outermost one for enum values and extend blocks), or Everything or Method.Options on it, with the name looked up in the outermost scope; no other call (Value, Type, NodeParent, NodeHierarchy, NodeByFullName, lookups, loads) makes one. The statement is one of the options of that declaration, the class of the handle is the descriptor message for that kind of declaration, and its field is what the name was bound to by the protobuf rules at the time of the call. Later on the statement still is an option of the declaration, and the class still the one of its kind.", "quantifier": "all histories of calls in which no load panics, all handles of options in them, all later times", "why_tests_cant": "a test looks at the handles of a few calls; this is about every handle after every history, and about all calls that could have made it", "anchors": ["internal/core/ast_option.go:newOption", "internal/core/ast_option.go:seqOptions", "internal/core/ast_option.go:namedOption", "internal/core/registry_meta.go:Options", "internal/core/registry_meta.go:OptionNamed", "internal/core/ast_file.go:File.Everything", "internal/core/ast_message.go:Message.Everything", "internal/core/ast_enum.go:Enum.Everything", "internal/core/ast_service.go:Service.Everything", "internal/core/ast_service.go:Method.Options"]}
{"id": "C114", "title": "Sound files never panic", "statement": "If the loaded files satisfy conditions that are visible in their text - distinct full names; the descriptor messages are there; only statements the library has a node type for; every option name bound in the scope where the library looks it up (for files, messages, enums, services and methods also in the outermost scope); field and branch types that do not name something other than a type; method types that are messages; map keys that are scalar keywords other than bytes and map values that are keywords or full names without the leading dot - then, after any history of calls, a call on a handle panics only when it makes no sense for the kind of node: parents, files and positions of types and values that have none, descriptions and type names of nodes that have none, the number of a oneof, options of nodes that cannot have any, and OptionNamed on an ordinary field. Value is to be called on options whose literal has a value. All other calls return.", "quantifier": "all histories of calls in which no load panics, all sound sets of files of any size and nesting, all handles, all calls", "why_tests_cant": "a test runs a few calls on a few files; this excludes panics for all files that meet the conditions and all sequences of calls", "anchors": ["internal/core/registry_meta.go:Options", "internal/core/registry_meta.go:OptionNamed", "internal/core/registry_types.go:getTypeByName", "internal/core/ast_option.go:newOption", "internal/core/ast_option_value.go:buildFromLiteral", "internal/core/ast_map.go:Map.Value", "internal/core/ast_service.go:Method.Input", "internal/core/registry_simple.go:GoPackage"]}
{"id": "C115", "title": "Exactly when the library and protoc disagree about a type", "statement": "Let the loaded files have distinct full names and no declaration named like a package, and let protoc's scoping rule read the type name of a field, oneof branch, method or map value as the message or enum declared at q. For a field (whose Type was not asked before) and a oneof branch: Type returns the node of q if no declaration that is neither message nor enum hides it, i.e. has the same one-identifier name and is the closest of that name around; if an enum constant hides it, Type returns the node of the constant; if anything else hides it, Type panics. For a method whose type is a message: Input (Output) returns the node of q if nothing hides it and panics otherwise. For a map value: Value returns the node of q if and only if the type is written without leading dot and is the full name of q; otherwise it returns another type that has the written name as its full name, or panics if there is none.", "quantifier": "all sets of loaded files of any size and nesting, all histories, all type references", "why_tests_cant": "a test compares a few references; this says for every reference of every valid program whether the answer is protoc's, and what it is otherwise", "anchors": ["internal/core/registry_types.go:getTypeByName", "internal/core/registry_name_resolver.go:resolveNameRaw", "internal/core/visitor_demark.go:visitorDemark", "internal/core/ast_map.go:Value", "internal/core/ast_service.go:Method.Input"]}
{"id": "C116", "title": "On a directory tree: what Build accepts and what Proto reads", "statement": "Let the operating system show a tree of directories and files. Build succeeds exactly when protoc's include directory has a google/protobuf/any.proto (if protoc was asked for), no root is given twice and every root is a directory. With the resolvers it returns, Proto(path), for a path that is not loaded, follows the components of path (also . and ..) from the include directory and then from the roots in lexicographic order, and stops at the first start from which this leads to something: the contents of a file become part of the registry, or the call fails with the error of reading it; for a directory the call fails; if it leads nowhere from all starts, the call fails with not found. The include directory is the directory include beside the directory of the protoc binary; for a binary directly in the root directory it is looked for in the working directory.", "quantifier": "all directory trees, working directories, roots, locations of protoc, import paths and registries", "why_tests_cant": "a test has a few directories; path cleaning, the order of the roots and the search interact for all spellings of paths", "anchors": ["internal/core/path_resolvers.go:Resolve", "internal/core/path_resolvers.go:Build", "internal/core/path_resolvers.go:newPathResolverProtoc", "internal/core/registry.go:protoFile"]}
{"id": "C117", "title": "A file imported under two spellings is two files", "statement": "Files are identified by the spelling of the import path, not by where it leads. If two different import paths lead to the same place from every directory (a.proto and ./a.proto), one is loaded and the other is not, then Proto of the other reads the file again: the registry then has two files, and every full name declared in one is declared in the other too, so full names are no longer unique.", "quantifier": "all directory trees, import paths, registries", "why_tests_cant": "a test uses one pair of paths; this holds for all spellings and files", "anchors": ["internal/core/registry.go:protoFile", "internal/core/path_resolvers.go:Resolve"]}
{"id": "C118", "title": "Registries in one process do not disturb each other", "statement": "A registry that is used with its own handles only works as if it were the only one in the process, whatever the program does with other registries before it is created and between the calls made with it, including giving its handles to other registries: NewRegistry succeeds or fails the same, the calls give corresponding handles, identical exactly where they are identical in the lone registry, and every further call, index and option value text is the same. All its handles represent things in files this registry has loaded, and two registries never give out identical nodes, builtin types apart, even when they load the same file.", "quantifier": "all programs: any number of registries, any interleaving of their creation and calls, any file systems", "why_tests_cant": "a test runs one interleaving of a few registries", "anchors": ["internal/core/registry.go:NewRegistry", "internal/core/registry.go:Proto", "internal/core/registry.go:Registry", "internal/core/registry_types.go:wrap"]}
{"id": "C119", "title": "A handle means nothing to another registry, silently", "statement": "Handles do not know their registry, and using one with another registry is not detected. If a handle belongs to a file that registry A has loaded then for every other registry B, even one that has loaded the same path: B.NodeIndex of it is the empty string; B.TypeIsDefined, and with it the tests for the well-known types, is false for every name; and the type of a oneof branch is looked up as if its reference were fully qualified, so that the answer is nil or whatever B knows under that name. A parsed file never belongs to two registries.", "quantifier": "all programs with any number of registries, all handles, all names", "why_tests_cant": "a test tries a few handles with a few registries", "anchors": ["internal/core/registry_meta.go:NodeIndex", "internal/core/registry_simple.go:TypeIsDefined", "internal/core/ast_oneof.go:Type", "internal/core/registry.go:Registry"]}
{"id": "C120", "title": "Every option of a declaration can be read", "statement": "From a handle of a file, every option statement on a declaration the iterators offer, all of whose options are bound by the protobuf rules, can be read: some walk down leads to a handle whose Options yield the statement.", "quantifier": "all loaded files, declarations, option statements and histories", "why_tests_cant": "a test reads a few options; that some statement can never be read by any program is a statement about all programs", "anchors": ["internal/core/registry_meta.go:Options", "internal/core/registry_meta.go:OptionNamed", "internal/core/ast_oneof.go:OneOfBranch", "internal/core/ast.go:NodeOptionable"]}
{"id": "C121", "title": "Floating-point options have the double nearest to what is written", "statement": "An option of type double that is set to a number of the protobuf language has as its value the IEEE 754 double nearest to that number (ties to even), with the sign that is written, also for zero; a number of magnitude at least 2^1024 - 2^970 makes Value panic, a tiny one does not. inf, -inf and nan give the infinities and a NaN; text that is none of these nor a hexadecimal number with a binary exponent makes Value panic. The same holds for elements of arrays and items of message literals.", "quantifier": "every history of calls, every option handle with a field of type double or float, every literal: any number of digits, any position of the point, any exponent", "why_tests_cant": "There are infinitely many literals and 2^64 doubles; rounding errors show only at midpoints and at the ends of the range.", "anchors": ["internal/core/ast_option_value.go:buildFromLiteral (float case)"]}
{"id": "C122", "title": "The text of a floating-point value is the shortest that reads back", "statement": "String of a floating-point value is plain positional notation (a minus sign if negative, no exponent, no superfluous zeros) of a number that rounds to the value, no number that rounds to it has fewer significant digits, and of those with as few digits it is the one closest to the value (in case of a tie, with an even last digit); infinities and NaN are +Inf, -Inf, NaN. An option set to the text of the value of another option has exactly the same value, including the sign of zero and NaN.", "quantifier": "all 2^64 doubles; all pairs of option handles with fields of type double or float, all literals", "why_tests_cant": "2^64 values, and minimality compares with infinitely many decimal numbers.", "anchors": ["internal/core/ast_option_value.go:OptionValueFloat.String", "internal/core/ast_option_value.go:buildFromLiteral (float case)"]}
{"id": "C123", "title": "After any number of failed loads exactly the front part of every file is known", "statement": "In every reachable state, however many loads have panicked half way before, there is for every file a number of statements - all of them, or exactly those in front of one of its import statements - such that every import among them is loaded and exactly the declarations in them are known, from then on and whatever calls follow: each is found by its full name (or another declaration of that name is) and its handles have that name as index; a declaration behind is never found by any name and its handles have an empty index. So a top-level declaration is known with everything inside it or not at all.", "quantifier": "every reachable state, with any number of loads that failed; every file and declaration; every later sequence of calls", "why_tests_cant": "Quantifies over all histories of successful and failed loads and over all continuations; a test sees one of them.", "anchors": ["internal/core/registry.go:Proto", "internal/core/registry.go:demarkFile", "internal/core/visitor_demark.go:VisitImport", "internal/core/registry_meta.go:NodeIndex", "internal/core/registry_types.go:NodeByFullName"]}
{"id": "C124", "title": "Type is a lookup from NodeIndex", "statement": "In every state a program can bring about, failed loads included, Type of a oneof branch, and the first Type of a field, returns the very node NodeByFullName returns for the type name as seen from the NodeIndex of the handle: for the name itself if it begins with a dot, and else for scope.name in the innermost enclosing scope for which NodeByFullName returns a node. It panics exactly if that node is no message, enum or enum constant, and is nil (or repeated of nil) exactly if there is no such node. A handle's NodeIndex is its full name if NodeByFullName finds the handle's declaration under it, and empty if not. So after a failed load a field can silently have a type of an outer scope although a nearer one is declared.", "quantifier": "every history of calls with any loads failing; every branch and field handle; every type name", "why_tests_cant": "Quantifies over all histories and files; the wrong type shows up only after a failed load with a name declared twice.", "anchors": ["internal/core/registry_types.go:getTypeByName", "internal/core/registry_types.go:NodeByFullName", "internal/core/registry_meta.go:NodeIndex", "internal/core/registry.go:Proto", "internal/core/visitor_demark.go:VisitImport"]}
{"id": "C125", "title": "Option values do not depend on the platform", "statement": "Option.Value gives the same result whether int and uint have 64 bits or 32 (GOARCH=386, arm): for every option, every literal and every state it returns on one platform exactly if it returns on the other, and then the same value.", "quantifier": "every option and every literal at any nesting depth, every state of the registry, both word sizes", "why_tests_cant": "Tests run on one platform; the numbers for which it matters are some of 2^64, anywhere inside a nested literal.", "anchors": ["internal/core/ast_option_value.go:buildFromLiteral", "internal/core/ast_option_value.go:OptionValueInt", "internal/core/ast_option_value.go:OptionValueUint"]}
{"id": "C126", "title": "Integer options out of the range of their type are rejected", "statement": "If the decimal number an option of an integer type is set to is not a value of that type (32 or 64 bits, signed or unsigned), Option.Value does not return a value.", "quantifier": "every number and every integer type", "why_tests_cant": "All integers.", "anchors": ["internal/core/ast_option_value.go:buildFromLiteral"]}
{"id": "C127", "title": "Moving declarations between files changes no type", "statement": "Take two sets of files with the same declarations: whatever the one declares under a full name, with its type name, label, number or signature, the other declares under that name too, but in whichever file, at whichever place, under whichever imports, with whichever options and comments; names are distinct and the loads did not panic. Then Type of a field (first call) or oneof branch, Input and Output of a method and Value of a map, called on the declarations of one full name, end alike in both: types of the same full name and Go type, nil in both, or the same panic. NodeByFullName finds the same, and NodeIndex, TypeName and TypeIsDefined give the same answers for those types.", "quantifier": "all pairs of such sets of files and all registries that loaded them (any entry points and histories), all fields, branches, methods, maps and names", "why_tests_cant": "A test moves one declaration; resolution walks scopes over a table that all loaded files share, so independence of place needs an argument about all tables", "anchors": ["internal/core/registry_types.go:getTypeByName", "internal/core/visitor_demark.go:visitorDemark", "internal/core/ast_map.go:Map.Value"]}
{"id": "C128", "title": "Layout and attached comments are seen by Pos and Comment only", "statement": "Take two sets of files that parse to the same trees but for lines, columns, offsets and the comments attached to declarations (reformatted, re-indented, re-commented). NewRegistry ends alike; after the same calls the client has the same handles, to the same elements and with the same identities; and every further call ends alike, with the same error or panic and the same answer: names, full names, descriptions, types, numbers, flags, options, parents, files, GoPackage. Pos names the same file, and only its line, column and offset, and the lines Comment returns, may be different. Option values print the same.", "quantifier": "all pairs of such sets of files (panicking ones and ones with duplicate names included), all histories of calls, all calls, all handles", "why_tests_cant": "A test reformats one file; that no position or comment reaches a lookup, a cache key or an error needs an argument over every function", "anchors": ["internal/core/registry_meta.go:Registry.Pos", "internal/core/registry_meta.go:Registry.Comment", "internal/core/registry_types.go:Registry.NodeFile", "internal/core/ast_option_value.go:buildFromLiteral"]}
