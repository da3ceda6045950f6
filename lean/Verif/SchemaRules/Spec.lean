import Verif.SchemaRules.Model

/-!
# Which schema documents are valid

The rules of the GraphQL specification (section 3) a document is held to, without reference to the program.
-/
namespace Verif.SchemaRules

/-- The types defined. -/
def defined (ds : List Definition) : List TypeDef :=
  ds.filterMap (fun d => match d with | .type t => if t.extend then none else some t | _ => none)

/-- The extensions of types. -/
def extensions (ds : List Definition) : List TypeDef :=
  ds.filterMap (fun d => match d with | .type t => if t.extend then some t else none | _ => none)

def directiveDefs (ds : List Definition) : List DirDef :=
  ds.filterMap (fun d => match d with | .directive d => some d | _ => none)

/-- The definition of a name: the last one. -/
def definition (ds : List Definition) (n : Name) : Option TypeDef :=
  (defined ds).reverse.find? (fun t => decide (t.name = n))

def directiveOf (ds : List Definition) (n : Name) : Option DirDef :=
  (directiveDefs ds).reverse.find? (fun t => decide (t.name = n))

/-- The extensions of a name. -/
def extensionsOf (ds : List Definition) (n : Name) : List TypeDef :=
  (extensions ds).filter (fun t => decide (t.name = n))

def Kind.fields : Kind → List Field
  | .object _ fs => fs
  | .interface _ fs => fs
  | _ => []

def Kind.implements : Kind → List Name
  | .object is _ => is
  | .interface is _ => is
  | _ => []

def Kind.members : Kind → List Name
  | .union ms => ms
  | _ => []

def Kind.values : Kind → List Value
  | .enum vs => vs
  | _ => []

/-- What a definition holds with its extensions. -/
def fieldsOf (ds : List Definition) (t : TypeDef) : List Field :=
  t.kind.fields ++ (extensionsOf ds t.name).flatMap (·.kind.fields)

def implementsOf (ds : List Definition) (t : TypeDef) : List Name :=
  t.kind.implements ++ (extensionsOf ds t.name).flatMap (·.kind.implements)

def membersOf (ds : List Definition) (t : TypeDef) : List Name :=
  t.kind.members ++ (extensionsOf ds t.name).flatMap (·.kind.members)

def valuesOf (ds : List Definition) (t : TypeDef) : List Value :=
  t.kind.values ++ (extensionsOf ds t.name).flatMap (·.kind.values)

/-- The name is one for introspection. -/
def Reserved (n : Name) : Prop := ∃ m, n = '_' :: '_' :: m

/-- The scalars everybody has. -/
def Builtin (n : Name) : Prop :=
  n = "String".toList ∨ n = "ID".toList ∨ n = "Float".toList ∨ n = "Boolean".toList ∨ n = "Int".toList

/-- A directive is used where it may be, and twice only if it is repeatable. -/
def DirectivesOk (ds : List Definition) (used : List Name) (l : Loc) : Prop :=
  ∀ d, directiveOf ds d.name = some d →
    (d.name ∈ used → l ∈ d.locations) ∧ (2 ≤ used.count d.name → d.repeatable = true)

/-- An input type: a builtin scalar, or a scalar, an enum or an input object of the document. -/
def InputType (ds : List Definition) (n : Name) : Prop :=
  Builtin n ∨ ∃ t, definition ds n = some t ∧
    (t.kind = .scalar ∨ (∃ vs, t.kind = .enum vs) ∨ ∃ fs, t.kind = .input fs)

/-- The type a name stands for: with unknown types allowed, the first of its extensions when it is not defined. -/
def Stands (o : Opts) (ds : List Definition) (n : Name) (t : TypeDef) : Prop :=
  definition ds n = some t ∨
    definition ds n = none ∧ o.forbidUnknown = false ∧ ∃ rest, extensionsOf ds n = t :: rest

def OutputType (o : Opts) (ds : List Definition) (n : Name) : Prop :=
  Builtin n ∨ ∃ t, Stands o ds n t ∧ ∀ fs, t.kind ≠ .input fs

def ArgOk (o : Opts) (ds : List Definition) (a : Arg) : Prop :=
  ¬ Reserved a.name ∧ InputType ds a.ty.base ∧ DirectivesOk ds a.directives .argumentDefinition ∧
    (o.draft = true → a.ty.nullable = false → a.hasDefault = false → "deprecated".toList ∉ a.directives)

def FieldOk (o : Opts) (ds : List Definition) (f : Field) : Prop :=
  ¬ Reserved f.name ∧ OutputType o ds f.ty.base ∧ DirectivesOk ds f.directives .fieldDefinition ∧
    (f.args.map (·.name)).Nodup ∧ ∀ a ∈ f.args, ArgOk o ds a

/-- `IsSubType` of the specification, for named types: the members of unions and the implementers of interfaces. -/
def Refines (ds : List Definition) (a b : Name) : Prop :=
  a = b ∨ ∃ t, definition ds b = some t ∧
    ((∃ ms, t.kind = .union ms ∧ a ∈ ms) ∨
     (∃ is fs, t.kind = .interface is fs) ∧ ∃ u, definition ds a = some u ∧ b ∈ u.kind.implements)

/-- `IsValidImplementationFieldType` of the specification. -/
inductive Covariant (ds : List Definition) : Ty → Ty → Prop where
  | named {a b : Name} {n m : Bool} : (m = false → n = false) → Refines ds a b → Covariant ds (.named a n) (.named b m)
  | list {s t : Ty} {n m : Bool} : (m = false → n = false) → Covariant ds s t → Covariant ds (.list s n) (.list t m)

/-- The argument of a name: the last one. -/
def argOf (args : List Arg) (n : Name) : Option Arg := args.reverse.find? (fun a => decide (a.name = n))

/-- The field implements that of an interface. -/
def Implements (ds : List Definition) (g f : Field) : Prop :=
  Covariant ds g.ty f.ty ∧
  (∀ n b, argOf f.args n = some b → ∃ a, argOf g.args n = some a ∧ a.ty = b.ty) ∧
  ∀ n a, argOf g.args n = some a → argOf f.args n = none → a.ty.nullable = true

/-- The interfaces implemented are interfaces, each once, with those they implement, and the fields are there. -/
def ImplementsOk (o : Opts) (ds : List Definition) (impls : List Name) (fields : List Field) : Prop :=
  impls.Nodup ∧ ∀ i ∈ impls, ∃ t is ifs, Stands o ds i t ∧ t.kind = .interface is ifs ∧ (∀ j ∈ is, j ∈ impls) ∧
    ∀ f ∈ ifs, ∃ g, fields.find? (fun g => decide (g.name = f.name)) = some g ∧ Implements ds g f

/-- An input object has a non-null field of another one. -/
def Holds (ds : List Definition) (a b : Name) : Prop :=
  ∃ t fs f, definition ds a = some t ∧ t.kind = .input fs ∧ f ∈ fs ∧ f.ty = .named b false

/-- An input object holds another one through some fields. -/
inductive Reaches (ds : List Definition) : Name → Name → Prop where
  | one {a b : Name} : Holds ds a b → Reaches ds a b
  | more {a b c : Name} : Holds ds a b → Reaches ds b c → Reaches ds a c

/-- The fields lead from an input object to another one. -/
inductive Chain (ds : List Definition) : Name → List Name → Name → Prop where
  | one {a b : Name} {t : TypeDef} {fs : List Arg} {f : Arg} : definition ds a = some t → t.kind = .input fs → f ∈ fs →
      f.ty = .named b false → Chain ds a [f.name] b
  | more {a b c : Name} {t : TypeDef} {fs : List Arg} {f : Arg} {l : List Name} : definition ds a = some t →
      t.kind = .input fs → f ∈ fs → f.ty = .named b false → Chain ds b l c → Chain ds a (f.name :: l) c

/-- What is asked of a definition of each kind. -/
def TypeOk (o : Opts) (ds : List Definition) (t : TypeDef) : Prop :=
  match t.kind with
  | .scalar => True
  | .object _ _ =>
    DirectivesOk ds t.directives .object ∧ ImplementsOk o ds (implementsOf ds t) (fieldsOf ds t) ∧ fieldsOf ds t ≠ [] ∧
      ((fieldsOf ds t).map (·.name)).Nodup ∧ ∀ f ∈ fieldsOf ds t, FieldOk o ds f
  | .interface _ fs =>
    DirectivesOk ds t.directives .interface ∧ ImplementsOk o ds (implementsOf ds t) (fieldsOf ds t) ∧ fs ≠ [] ∧
      ∀ f ∈ fs, FieldOk o ds f
  | .union _ =>
    DirectivesOk ds t.directives .union ∧ (membersOf ds t).Nodup ∧
      ∀ m ∈ membersOf ds t, ∃ u is fs, definition ds m = some u ∧ u.kind = .object is fs
  | .enum _ =>
    DirectivesOk ds t.directives .enum ∧ ((valuesOf ds t).map (·.name)).Nodup ∧
      ∀ v ∈ valuesOf ds t, DirectivesOk ds v.directives .enumValue
  | .input fs =>
    DirectivesOk ds t.directives .inputObject ∧ fs ≠ [] ∧ ¬ Reaches ds t.name t.name ∧
      ∀ f ∈ fs, DirectivesOk ds f.directives .inputFieldDefinition ∧ InputType ds f.ty.base

/-- Where a directive on an extension is. -/
def place : Kind → Loc
  | .scalar => .scalar
  | .object _ _ => .object
  | .interface _ _ => .interface
  | .union _ => .union
  | .enum _ => .enum
  | .input _ => .inputObject

/-- The two are of the same kind. -/
inductive Alike : Kind → Kind → Prop where
  | scalar : Alike .scalar .scalar
  | object {a b c d} : Alike (.object a b) (.object c d)
  | interface {a b c d} : Alike (.interface a b) (.interface c d)
  | union {a b} : Alike (.union a) (.union b)
  | enum {a b} : Alike (.enum a) (.enum b)
  | input {a b} : Alike (.input a) (.input b)

def ExtensionOk (o : Opts) (ds : List Definition) (t : TypeDef) : Prop :=
  DirectivesOk ds t.directives (place t.kind) ∧
    (o.forbidUnknown = true → (t.kind = .scalar ∧ Builtin t.name) ∨ ∃ u, definition ds t.name = some u ∧ Alike t.kind u.kind)

/-- The name of a root, with the default one. -/
def rootNames (s : SchemaDef) : List Name :=
  [s.query.getD "Query".toList, s.mutation.getD "Mutation".toList, s.subscription.getD "Subscription".toList]

def IsObject (ds : List Definition) (n : Name) : Prop :=
  ∃ t is fs, definition ds n = some t ∧ t.kind = .object is fs

def SchemaOk (ds : List Definition) (s : SchemaDef) : Prop :=
  DirectivesOk ds s.directives .schema ∧ (rootNames s).Nodup ∧
    (∀ n, s.query = some n ∨ s.mutation = some n ∨ s.subscription = some n → IsObject ds n)

def schemasOf (ds : List Definition) : List SchemaDef :=
  ds.filterMap (fun d => match d with | .schema s => some s | _ => none)

/-- A document the validation is to accept. -/
structure Accepted (o : Opts) (ds : List Definition) : Prop where
  once : ((defined ds).map (·.name)).Nodup
  names : ∀ t, (t ∈ defined ds ∨ t ∈ extensions ds) → ¬ Reserved t.name
  scalars : ∀ t ∈ defined ds, Builtin t.name → t.kind = .scalar
  types : ∀ t ∈ defined ds, TypeOk o ds t
  exts : ∀ t ∈ extensions ds, ExtensionOk o ds t
  directives : ∀ d ∈ directiveDefs ds, ¬ Reserved d.name ∧ ∀ a ∈ d.args, InputType ds a.ty.base
  schemas : ∀ s ∈ schemasOf ds, SchemaOk ds s
  schema : ((schemasOf ds).filter (fun s => !s.extend)).length ≤ 1
  roots : schemasOf ds = [] → ∀ n, n = "Query".toList ∨ n = "Mutation".toList ∨ n = "Subscription".toList →
    ∀ t, definition ds n = some t → ∃ is fs, t.kind = .object is fs

end Verif.SchemaRules
