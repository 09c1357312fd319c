import Verif.Model.Registry
/-
  Name resolution, file loading and the demarking visitor:
  internal/core/registry_name_resolver.go, internal/core/registry.go, internal/core/visitor_demark.go.
-/
namespace Protoast

/-- internal/core/registry_name_resolver.go:30-35: cut the last component off a scope
    (`i := strings.LastIndex(scope, "."); if i <= 0 { "" } else { scope[:i] }`). -/
def cutScope (scope : Str) : Str :=
  match lastIndex dot scope with
  | none => []
  | some 0 => []
  | some i => scope.take i

/-- The loop internal/core/registry_name_resolver.go:22-36. The counter bounds the iterations; it starts above the
    scope length and every iteration shortens the scope, so it never runs out
    (theorem `resolveLoop_fuel` in Proof/Resolve.lean). -/
def resolveLoop (defined : Str → Bool) (name : Str) : Nat → Str → Option Str
  | 0, _ => none
  | n + 1, scope =>
    if defined (scope ++ dot :: name) then some (scope ++ dot :: name)
    else if scope = [] then none
    else resolveLoop defined name n (cutScope scope)

/-- internal/core/registry_name_resolver.go:14-40 `resolveNameRaw`, with `defined x` standing for
    `_, ok := r.registry[x]`. -/
def resolveNameRaw (defined : Str → Bool) (scope name : Str) : Str × Bool :=
  if hasDotPrefix name then (name, defined name)
  else
    let scope := if scope ≠ [] ∧ hasDotPrefix scope = false then dot :: scope else scope
    match resolveLoop defined name (scope.length + 1) scope with
    | some c => (c, true)
    | none => (dot :: name, defined (dot :: name))

/-- A `PathResolver` (internal/core/path_resolvers.go:16-19). -/
structure Resolver where
  name : Str
  resolve : Str → Except Err Str

/-- What the registry sees of the outside: its resolvers and `readProtoFile`
    (internal/core/registry.go:138-152: read the located file and parse it, `load protoName path`).
    The parser is external; theorems state what they assume about the trees it returns. -/
structure World where
  resolvers : List Resolver
  load : Str → Str → Except Err (List Elem)

/-- The resolver loop internal/core/registry.go:77-90; `.ok []` (Go's `protoName == ""`) when no resolver knows the
    path. -/
def locate (path : Str) : List Resolver → Except Err Str
  | [] => .ok []
  | rs :: rest =>
    match rs.resolve path with
    | .error e =>
      if e.isNotExist then locate path rest
      else .error (.wrap (b!"resolve proto file path with " ++ rs.name) e)
    | .ok name => .ok name

/-- internal/core/registry.go:72-104 `protoFile`; the result is the index of the `*proto.Proto` in the heap.
    `parsed.Filename = path` (internal/core/registry.go:102) is folded into the allocation. -/
def protoFile (W : World) (path : Str) : M (Except Err Nat) := fun r =>
  match r.protos path with
  | some i => (.ok (.ok i), r)
  | none =>
    match locate path W.resolvers with
    | .error e => (.ok (.error e), r)
    | .ok protoName =>
      if protoName = [] then (.ok (.error .notFound), r)
      else
        match W.load protoName path with
        | .error e =>
          (.ok (.error (.wrap (b!"get proto definition from resolved file " ++ protoName) e)), r)
        | .ok elems =>
          (.ok (.ok r.heap.length),
            { r with heap := r.heap ++ [⟨path, elems⟩], protos := upd r.protos path r.heap.length })

/-- `v.r.registry[name] = x`. -/
def setName (name : Str) (p : Ptr) : M Unit :=
  M.modify fun r => { r with registry := upd r.registry name p }

/-- `v.r.scopes[x] = scope`. -/
def setScope (v : Vis) (scope : Str) : M Unit :=
  M.modify fun r => { r with scopes := upd r.scopes v scope }

/-- internal/core/visitor_demark.go:18-20 `scopedName`. -/
def scopedName (scope name : Str) : Str := scope ++ dot :: name

/-- internal/core/visitor_demark.go:55-62: the scope set by a package statement. -/
def packageScope (old name : Str) : Str :=
  if hasDotPrefix name then name
  else if name ≠ [] then dot :: name
  else old

mutual
/-- `e.Accept(v)` for the visitor of internal/core/visitor_demark.go:10-137. The mutable field `v.scope` is passed
    in and returned; `v.file` is `key`; `imp` is the body of `VisitImport`; the write-only field
    `isExtend` is left out.  `p` is the pointer to the visited element.  A panic discards the visitor
    together with its scope, so the scope need not survive one.
    * `VisitMessage` 22-38, `VisitService` 40-51, `VisitSyntax` 53, `VisitPackage` 55-64,
      `VisitOption` 66, `VisitImport` 68, `VisitNormalField` 84-88, `VisitEnumField` 90-93,
      `VisitEnum` 95-102, `VisitComment` 104, `VisitOneof` 106-115, `VisitOneofField` 116-120,
      `VisitReserved` 122, `VisitRPC` 124-128, `VisitMapField` 130-134, `VisitGroup` 136,
      `VisitExtensions` 137. An edition statement has no visitor method in the parser library. -/
def visit (imp : Str → M Unit) (key : Vis) : Elem → Ptr → Str → M Str
  | .mk _ _ k cs, p, scope =>
    match k with
    | .message name isExtend =>
      if isExtend then do
        let _ ← visitAll imp key cs p 0 scope
        pure scope
      else do
        let inner := scopedName scope name
        setName inner p
        setScope (.at p) inner
        let _ ← visitAll imp key cs p 0 inner
        pure scope
    | .service name => do
      let inner := scopedName scope name
      setName inner p
      setName inner p
      setScope (.at p) inner
      let _ ← visitAll imp key cs p 0 inner
      pure scope
    | .packageK name => do
      let scope' := packageScope scope name
      setScope key scope'
      pure scope'
    | .importK filename => do
      imp filename
      pure scope
    | .normalField name _ _ _ _ => do
      setName (scopedName scope name) p
      setScope (.at p) (scopedName scope name)
      pure scope
    | .enumField name _ => do
      setName (scopedName scope name) p
      pure scope
    | .enum name => do
      setName (scopedName scope name) p
      setScope (.at p) (scopedName scope name)
      visitAll imp key cs p 0 scope
    | .oneof name => do
      setName (scopedName scope name) p
      setScope (.at p) (scopedName scope name)
      let _ ← visitAll imp key cs p 0 scope
      pure scope
    | .oneofField name _ _ => do
      setName (scopedName scope name) p
      setScope (.at p) (scopedName scope name)
      pure scope
    | .rpc name _ _ _ _ => do
      setName (scopedName scope name) p
      setScope (.at p) (scopedName scope name)
      pure scope
    | .mapField name _ _ _ => do
      setName (scopedName scope name) p
      setScope (.at p) (scopedName scope name)
      pure scope
    | .syntaxK _ => pure scope
    | .edition => pure scope
    | .option _ _ => pure scope
    | .reserved _ _ => pure scope
    | .extensions => pure scope
    | .group _ => pure scope
    | .comment => pure scope
/-- `for _, e := range elements { e.Accept(v) }` (internal/core/visitor_demark.go:32-34,47-49,99-101,111-113 and
    `Proto.Accept` of the parser library); the elements are the children of `p` from index `n` on. -/
def visitAll (imp : Str → M Unit) (key : Vis) : List Elem → Ptr → Nat → Str → M Str
  | [], _, _, scope => pure scope
  | e :: es, p, n, scope => do
    let scope' ← visit imp key e (p.child n) scope
    visitAll imp key es p (n + 1) scope'
end

/-- `file.Accept(v)` with a fresh visitor (internal/core/registry.go:63-67, internal/core/visitor_demark.go:78-81): the visitor
    starts with the empty scope. -/
def acceptFile (imp : Str → M Unit) (key : Vis) (i : Nat) : M Unit := do
  let r ← M.get
  let _ ← visitAll imp key ((r.children ⟨i, []⟩).getD []) ⟨i, []⟩ 0 []
  pure ()

/-- internal/core/visitor_demark.go:68-82 `VisitImport`. The counter bounds the import depth; running out is
    reported as `timeout`, and theorem C06 shows that it never happens for finite import graphs. -/
def visitImport (W : World) : Nat → Str → M Unit
  | 0, _ => fun r => (.timeout, r)
  | n + 1, path => do
    let r ← M.get
    match r.protos path with
    | some _ => pure ()
    | none => do
      match ← protoFile W path with
      | .error e => M.panic (.importFailed path e)
      | .ok i => acceptFile (visitImport W n) .nilProto i

/-- internal/core/registry.go:57-70 `demarkFile`. -/
def demarkFile (W : World) (fuel : Nat) (path : Str) : M (Except Err Unit) := do
  match ← protoFile W path with
  | .error e => pure (.error e)
  | .ok i => do
    acceptFile (visitImport W fuel) (.at ⟨i, []⟩) i
    pure (.ok ())

/-- `&File{proto: file}` (internal/core/registry.go:42): a fresh wrapper on every call. -/
def newFile (i : Nat) : M Node := do
  let a ← M.alloc
  pure (.wrapped a .file ⟨i, []⟩)

/-- internal/core/registry.go:38-55 `Proto`: the two rounds of the loop, written out. -/
def proto (W : World) (fuel : Nat) (path : Str) : M (Except Err Node) := do
  let r ← M.get
  match r.protos path with
  | some i => do let f ← newFile i; pure (.ok f)
  | none => do
    match ← demarkFile W fuel path with
    | .error e => pure (.error (.wrap (b!"resolve proto file " ++ path) e))
    | .ok () => do
      let r ← M.get
      match r.protos path with
      | some i => do let f ← newFile i; pure (.ok f)
      | none => pure (.error .protoNotFound)

/-- `"google/protobuf/descriptor.proto"` (internal/core/registry.go:31). -/
def descriptorPath : Str := b!"google/protobuf/descriptor.proto"

/-- internal/core/registry.go:22-36 `NewRegistry`: the result registry is the final state when `.ok (.ok ())`. -/
def newRegistry (W : World) (fuel : Nat) : Res (Except Err Unit) × Reg :=
  (do
    match ← demarkFile W fuel descriptorPath with
    | .error e => pure (.error (.wrap b!"set up proto descriptor" e))
    | .ok () => pure (.ok ()) : M (Except Err Unit)) Reg.empty

end Protoast
