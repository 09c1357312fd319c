# Formal model of sirkon/protoast in Lean 4

## What is modelled

All of `/repo/internal/core` (the packages `protoast` and `past` only re-export it), function by
function, in `lean/Verif/Model/`:

| module | Go source |
| --- | --- |
| `Str.lean` | byte strings and the `strings` helpers the code uses |
| `Ast.lean` | the syntax tree of the external parser `emicklei/proto` (the fields /repo reads) |
| `Registry.lean` | `Registry` state, Go pointers, wrapper nodes, errors, panics, the state+panic monad `M` |
| `Load.lean` | `registry_name_resolver.go`, `registry.go`, `visitor_demark.go` |
| `Wrap.lean` | `wrap`, `getTypeByName`, `NodeByFullName`, builtin tables of `registry_types.go`, `ast_builtin.go` |
| `Nodes.lean` | `ast_file.go`, `ast_message.go`, `ast_enum.go`, `ast_oneof.go`, `ast_service.go`, `ast_map.go`, `ast_reserved.go`, `ast_import.go`, `ast_syntax.go`, `ast_package.go` |
| `Options.lean` | `ast_option.go`, `ast_option_value.go`, `Everything` iterators, `Options`, `OptionNamed` |
| `Meta.lean` | `NodeIndex`, `NodeDescription`, `Comment`, `Pos`, `TypeName`, `NodeParent`, `NodeHierarchy`, `NodeFile`, `registry_simple.go`, `Option.Is` |
| `Strconv.lean` | base-10 `strconv` functions used by option values |
| `Paths.lean` | `path_resolvers.go` and the `filepath`/`sort`/`slices` functions it calls |
| `Conc.lean` | `wrap` as interleaved atomic steps of many goroutines (C58) |
| `../Small/Prog.lean`, `../Small/Code.lean`, `../Small/Calls.lean` | every API function once more, as a program in small steps, and goroutines that run them (C96-C99) |

Modelling decisions:

* **Pointers.** A parsed object is addressed by (index of the parsed file, path of child indices), so
  pointer equality is structural and the parser's `Parent` field is "drop the last index". Wrapper
  structs get fresh addresses from a counter, so `==` between nodes is equality of addresses and the
  effect of the caches on node identity is visible.
* **Panics** are values (`Res.panic`) and the state changes made before a panic persist, so the model
  covers clients that recover. Deferred functions run on the panic path exactly as in Go.
* **Maps** are partial functions; the code never ranges over a map.
* **Iterators** are lists of suspended steps; a loop body is an arbitrary stateful computation which may
  call the registry and may stop at any point. In a history a loop is a sequence of "take the i-th element" calls
  (`Seq.nth`), which need not start at 0: histories of the model include all real ones.
* **Import recursion and parent climbing** take a step budget; running out is a distinct outcome
  (`timeout`) and separate theorems show the budget is never needed (C06, C35).
* **Outside world.** Resolvers and read-and-parse are arbitrary functions (`World`), which may differ
  from call to call in a history. What a theorem assumes about parser output is an explicit predicate.

* **Goroutines** (C96-C99). `Small/Code.lean` repeats the functions of the model as programs whose steps are: read
  the maps, write one entry of a map, allocate a wrapper, allocate a parsed file. `Small/Alone3.lean` proves that a
  program run without interruption is the function of `Model/`. Simplifications: reads of one goroutine between two of
  its writes or allocations see the same state; steps interleave (sequential consistency), whereas unsynchronised Go
  maps may also abort the process; a goroutine holds a lock, if at all, from the start of a call to its end.

## Trusted base

* Lean's kernel. Axioms: at most `propext`, `Classical.choice`, `Quot.sound` (checked by `#print axioms`).
  No axiom is declared, no `native_decide`, no `bv_decide`.
* The reading of the Go code into the model (each definition cites its lines).
* About `emicklei/proto` v1.14.3 (not available in the sandbox): `Parent` of an element is the object
  whose `Elements`/`Options` holds it; `Proto.Accept` visits top-level elements in order; visitor methods
  are the ones visitor_demark.go implements (an edition statement has none); `Option.Name` keeps the
  parentheses as written; `Parser.Filename(path)` makes `Position.Filename` equal to `path`.
  The last point and the grammar (which kinds occur under which) appear as hypotheses of theorems.
* Go: `slices.Compact` zeroes the tail (Go >= 1.22; go.mod requires 1.26); `int` is 64 bits (32 in C125);
  `filepath.Clean/Join/Split` as documented for Unix.

Not modelled: error message texts beyond their wrapping structure, the visitor's write-only `isExtend`
flag, goroutines except in the dedicated models of C58, C96-C99, C101 and C102, `ParseFloat/FormatFloat` (parameters; for C121 and
C122 they are modelled with exact arithmetic in Model/Float.lean),
memory/performance, `internal/playground` (an outdated copy of the Quick Start that does not compile: it calls a
method `Value` that `OptionValueVariant` does not have). (`internal/readme`, the linter printed in README.md, is modelled in Model/Readme.lean.)

`Verif/Conformance.lean` is a test of the model, not a proof about the library: it transcribes
`testdata/*.proto` and the body of `TestProtoAST` (protoast_test.go) call by call and shows by evaluation in
the kernel that the model gives the answers the project's own test expects of the Go code.

## Plan per property

(The final status is in MANIFEST.json; `X_false` theorems prove the negation of a property that the code
violates, `_partial` theorems prove the part that holds.)

* C01-C03 `resolveNameRaw`: induction on the scope; spec = longest enclosing scope, defined on strings.
* C04 protoc's lookup rule is written down independently (`Spec/Protoc.lean`) and compared.
* C05 false: a field named like its type shadows it; witness by evaluation, and general partial theorem.
* C06 measure = paths of a finite import-closed set not yet loaded; also budget independence.
* C07, C08, C14, C19, C24-C28, C57: invariants over histories (`Spec/History.lean`: a client that holds
  handles and performs any sequence of API calls, panics recovered, file system changing between calls).
* C09, C10, C13: visitor soundness and completeness against a path-based definition of fully qualified
  names (`Spec/Names.lean`); depth-first-search invariant "finished or in progress" for import cycles.
* C11, C12: from the above. C11 is false for enum values (no scope recorded).
* C15, C17, C18, C20: false; witnesses by evaluation of small concrete worlds, partial theorems for the
  cases that hold.
* C16 induction on the resolver list.
* C21, C22: sortedness/permutation lemmas; C22 is false (`slices.Compact` result discarded).
* C23 false (`..`); partial for paths without `..`.
* C26 false (`Proto` allocates a new `*File`); partial for `NodeFile`/`NodeHierarchy`.
* C28 false (deferred cache write on panic).
* C29-C32: iterators compared with filters of the source elements; C31 false for `File.Message/Type` with
  extend blocks, C32 false for comments, groups, extension ranges.
* C33 generic lemma about `runSteps` for all bodies.
* C34-C37 invariant of handles; C37 false for array values and map items.
* C38-C44 direct; C40 and C42 false for maps.
* C45-C48 options; C46, C47, C48 false, with partial theorems.
* C49, C50 relational specification of option values; false for uint32/uint64, repeated named types,
  single literals of repeated options.
* C51 strconv round trip by induction on digits.
* C52-C56, C59, C60 direct; C53 and C55 false in general.
* C58: small-step model of `wrap` (check, build, store) for any number of goroutines and any schedule
  (`Model/Conc.lean`); false without a lock; holds when the node was handed out before.
* C61 from the resolver theorems, stated on the source files; C62, C63 on the path model.
* C64 three-way case analysis of `Proto` over any import-closed set of files; C65 invariant over histories.
* C66 refinement: protoc's rule on the source (`Spec/Protoc.lean`, `Spec/Program.lean`) against the API.
* C67 invariant: only a lookup of an unregistered name touches the cache entry of the nil visitee
  (`Proof/NilKey.lean`); `Ptr.parent` of a file is never looked up and has an arbitrary value.
* C68-C73 exact results where the documented behaviour (C40, C42, C32, C31, C37, C11) is false.
* C74 `Type` over a whole history: the table of field types gets its entry from the first `Type` call (frame rule for
  all other calls), then C39/C27.
* C75 package statements at any place: `Spec/InForce` names a declaration by the last package statement above it; the
  actions of the visitor are compared with it by induction over the tree (`Proof/InForce`), and carried over to
  histories by the induction principle of `Proof/Induct` and `Proof/ActsDone`.
* C76 options exactly: the lookup scope of each node is named, and success and panic of `Options`, `Method.Options` and
  `OptionNamed` are characterised by `Binds` in it, both directions; time outs are excluded.
* C77, C78 where option values come from: mutual induction over literals shows which values carry an option pointer;
  the cache invariant shows that wrapping an option never gives a node.
* C79, C80 termination and panics: `Spec/Panics` lists the panics of every call by kind of handle; `Proof/Sane` carries
  a judgement "does not time out and panics only as listed" through every operation of the model, under the invariant
  of reachable states; the witness `C80_all_occur` shows that no list can be shortened,
  but for `noGoPackage` of `GoPackage`, which cannot occur (Proof/GoPack, from C123).
* C81, C82 `Everything` as a loop and `GoPackage`: one step of the loop keeps the invariant and makes no cache entry nil,
  so that whether the later elements can be delivered does not change; induction over the elements.
* C83 walking down from a file: induction over the depth; one step is the element of the iterator at the index which the
  kinds before it determine.
* C84 file handles: an address that is in use and in no cache entry stays so, because `wrap` stores new addresses only.
* C85 a bisimulation: a renaming of the positions of the files and a shift of the wrapper addresses relates the two registries, and every model function maps related states to related results (Proof/Rename*.lean); what a call answers besides handles is `Op.answer` of Spec/Answer.lean.
* C86 a bisimulation up to a partial matching of wrapper addresses between two registries with the same files, where each side may have nodes and field types cached that the other has not (Proof/Quiet*.lean); it covers every call of the model including loads. Conditions shown necessary by concrete clients.
* C87 from C86 by induction over the interleaving, removing the other programs' calls one at a time; needs transitivity of "sees the same".
* C88 the program `internal/readme/main.go` modelled on top of the API model (Model/Readme.lean); Spec/Linter.lean says what should be reported, from the source trees alone. A loop rule per loop (fields, methods, services) over states reached by API calls, using C66 for types, C41 for responses, C36 for positions, C09 for names, C76 for `Option`; refuted in its README form by two schemas.
* C89 the exact part of C88: report, exit status, failures; by the same loop rules. C90 from C61 applied before and after the further calls, plus persistence of the node cache. C91 from C76 and the equivalence of `Refers` with the nearest declaration in clean states.
* C92 the name read back: `declared_dot`/`scopeAt_dot` show that ".C.n" resolves from any scope to the field of the option message; with C76 (what `Options` and `OptionNamed` deliver) and uniqueness of names.
* C93 the README's Quick Start modelled on top of the API model (Model/QuickStart.lean, spec in Spec/QuickStart.lean); loop rules as for C88, C59/C76 for options and values, C64 for the ends during loading. internal/playground is a prefix of it and not modelled separately.
* C94 errors as chains of annotations around a cause (Spec/Errors.lean: `Cause`, `annotated`, `Unwraps`); the cause is unique and exists iff the file is unreadable; for panics induction over the import recursion as for C64. False as stated (counterexample: no resolvers), with the exact form.
* C95 every call that returned is replayed against any registry whose caches extend the one it left (Proof/Again1–3): a hit for every lookup of the first run, hence the same branch everywhere and no write.
* C96 every program is compared with its run in the warm-up (Small/Again, Again2): all its reads hit, so it reaches no write; a schedule is a sequence of such steps on an unchanging registry.
* C97 invariant of locked schedules: between calls a sequential history; inside a call the rest of the program, run alone, is the call.
* C98 false: witness schedule by evaluation, against all sequential histories of the same calls; partial under a lock.
* C99 an accessor's program has no write or allocation; what it reads (the parsed objects) no step of another goroutine changes, by induction over the schedule.
* C100 invariants of reachable registries map the keys of each table injectively to files or statements; statements are counted by their paths.
* C101 a rely/guarantee logic over the programs in small steps (Small/Crowd1.lean): as long as every goroutine adds only correct cache entries, a call comes to what it comes to in the registry at the start, addresses of new nodes aside; each call satisfies this (Small/Crowd2.lean, Small/Crowd3.lean); both the interleaved and the lone run are compared with it (Small/Crowd4.lean). Addresses are compared with `blur` (Small/Blur.lean).
* C102 a schedule in which a goroutine gets two nodes for one message; what holds follows from C101 and the invariant of the caches.
* C103 the invariant of reachable registries says it of all handles; the types are compared with a table of its own (Spec/Handles.lean).
* C104 by induction over the path of a declaration along its NodeHierarchy (C35) and C11.
* C105 C82 twice: calls that load nothing change neither the trees nor the names, and the go_package of a file is unique.
* C106 the actions of a file split at the import statement that fails; induction over the import depth gives the way and, per file, what was recorded (Proof/Stuck.lean); later calls never record anything for files loaded before (exec_names, Later).
* C107 C21 for the order of the directories, C16 for what the registry does with the first answer.
* C108 Model/Disk.lean reads every file at its own moment. Two loaders that read the same for the files that end up loaded run in step (Proof/Disk.lean: runActs_follow, visitImport_follow); every path is read at most once in a call, so a single moment per path can be picked afterwards. For histories the disk is the final registry itself.
* C109, C110 Model/Output.lean is the two README programs in a monad that keeps the printed lines also when the program panics. Erasing the lines gives the programs of C93 and C89 (Proof/Output.lean: Writes), so their theorems apply to the outcome; which lines are out at a panic is an induction over the options and over the services.
* C111 Spec/Walk.lean is a client program that walks a file with iterators and Type. Each loop adds the handles of the members and what is found inside them, or stops with a panic of Type (goes_loop); the list of places is duplicate free and holds exactly the visible ones by induction over the depth (Props/Walk.lean).
* C112 Spec/ValueExact.lean says when two values are the same up to node identity. A literal has at most one value (mutual induction over the derivations of Spec/Values.lean; numerals are read in one way in each dialect); with C49_sound, C49_accepts and the absence of timeouts the result is exact. The field of a handle is declared because all objects around it have members (NestedFile). Enum constants: the node is the cached one (invariant).
- **C113** Spec/Origin.lean says which calls make option handles and with which scope; by a shape analysis of every call (Proof/Origin.lean: all other results are wrapped nodes, types or values) and induction over the history.
- **C114** Spec/SoundSchema.lean lists conditions on the text of the loaded files and, per call and kind of node, the panics that are left; from the list of C80 each other panic is excluded with the exact theorems (C39, C41, C68, C70, C76, C82, C112). A checker (Props/SoundCheck.lean) shows that the example files are sound.
- **C115** Spec/Hidden.lean says what hides a reference from the library. The closest declaration of a one-identifier name is the scoping rule of C01 with no type in it; a type in sight is what C01 finds. C74, C41 and C68 give the calls.
- **C116** Spec/Tree.lean: a tree of places and what the operating system shows of it. A cleaned path goes up only at its beginning (Proof/Tree.lean), and joining walks from the directory (join_walk), so C107 speaks about places.
- **C117** C116 twice, and loaded files stay (proto_later).
- **C118** a process has one heap and separate maps per registry (Model/Process.lean). Simulation between the lone
  registry and the registry in the process, by a renaming of places and addresses; a call with another registry shifts the
  renaming beyond what is in use (Sim.shift, from the registry invariant).
- **C119** every file has an owner, and the maps of a registry refer to files it owns only (Owns, an invariant of all
  actions, also with foreign handles).

- **C120** the walk of C83 to the declaration, then C76 in the state reached (walks fill caches only); the limits from
  C113 (who made an option handle) and C103 (what kind of thing its receiver is). False for branches of oneofs.

- **C121** `ParseFloat` with exact arithmetic: a bit pattern is a number, its value in units of 2^-1074 a natural number,
  strictly increasing (`magnitude_mono`); division rounded half to even at 53 bits gives the nearest pattern, ties to even
  (`roundBits_near`), which is unique; overflow and the sign separately. Reading of digits by induction on the text,
  in both directions: what is a number is read as its value, and what is read is a number.
- **C122** the exact value of a double is a multiple of 10^-1074; the search for the largest power of ten with a multiple
  that rounds to the double; minimality because the numbers that round to a double form an interval (`NearBits.mono`);
  the closest of two neighbouring multiples.

- **C123** an invariant: for every file in memory there is a k, all statements or the position of an import, such that the
  entries of the tables for the file are exactly those of its first k statements (Proof/Whole.lean); preserved by the
  visitor whether or not an import panics, by every other call, and never changed for files loaded before.
- **C124** the node NodeByFullName returns is the wrapper of the registered declaration (C28); with it the innermost lookup of
  C01 over the registry becomes one over the answers of NodeByFullName, from the scope recorded for the handle, which is its
  NodeIndex; for files that were not read to the end C123 says which scopes are recorded (Props/After).
- **C125** Model/Platform.lean is `Option.Value` with the size of `int` as a parameter. A relation between two computations
  (Cuts: one returns exactly when the other does with a value that fits, and then the value cut to 32 bits, in the same
  state) is carried through the recursion over literals (Proof/Platform.lean).
- **C126** `Atoi` accepts 64 bits whatever the type is (C51); the types of 64 bits are exact.
- **C127** Spec/Moved.lean: same declarations up to place. Names are registered iff declared (C09, C10), so both tables have the same
  keys, the scope of a declaration is its full name, and a look-up depends on these only.
- **C128** Spec/Layout.lean: `shorn` erases lines, columns, offsets and attached comments from literals, elements, option values,
  handles and answers. Every function of the model, run on a registry and on the same registry without layout, returns
  the same up to layout and leaves states that again differ in layout only (Proof/Layout1-4.lean, one lemma per
  function); two worlds that are equal without layout both correspond to the one without layout.

## Seeded bugs

`seeded/LOG.jsonl` has one line per wrong program tried in a scratch copy: the definition, the edit, the claim it
breaks, the declarations whose proofs failed (`direct`) and the property theorems that no longer build because of it.
